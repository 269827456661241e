import Verif.Proofs.Likelihood
import Verif.Props.CovarianceChain
import Verif.Props.LogProbGradient

/-! Property theorems C111: maximum likelihood.  `partition` lies above its tangents, whose slopes are `marginals`; so the log-likelihood of observed events is
largest exactly where `marginals` are the means of the events. -/

open Finset Spec Generic

noncomputable section
namespace Props.Likelihood

/-- `g` makes the sum of the log-probabilities `L g v` of the observed values as large as possible. -/
def IsBest {G V : Type} (L : G → V → ℝ) (values : List V) (p : G) : Prop := ∀ g, (values.map (L g)).sum ≤ (values.map (L p)).sum

theorem sum3 (a b c : ℕ) (f : ℕ → ℕ → ℕ → ℝ) : ∑ x ∈ range a ×ˢ range b ×ˢ range c, f x.1 x.2.1 x.2.2 = ∑ i ∈ range a, ∑ j ∈ range b, ∑ k ∈ range c, f i j k := by
  rw [sum_product]
  refine sum_congr rfl fun i _ => ?_
  rw [sum_product]

theorem sum4 (a b c d : ℕ) (f : ℕ → ℕ → ℕ → ℕ → ℝ) : ∑ x ∈ range a ×ˢ range b ×ˢ range c ×ˢ range d, f x.1 x.2.1 x.2.2.1 x.2.2.2 =
    ∑ i ∈ range a, ∑ j ∈ range b, ∑ k ∈ range c, ∑ l ∈ range d, f i j k l := by
  rw [sum_product]
  refine sum_congr rfl fun i _ => ?_
  rw [sum_product]
  refine sum_congr rfl fun j _ => ?_
  rw [sum_product]

theorem mem3 {a b c : ℕ} {x : ℕ × ℕ × ℕ} : x ∈ range a ×ˢ range b ×ˢ range c ↔ x.1 < a ∧ x.2.1 < b ∧ x.2.2 < c := by simp [mem_product]

theorem mem4 {a b c d : ℕ} {x : ℕ × ℕ × ℕ × ℕ} : x ∈ range a ×ˢ range b ×ˢ range c ×ˢ range d ↔ x.1 < a ∧ x.2.1 < b ∧ x.2.2.1 < c ∧ x.2.2.2 < d := by
  simp [mem_product]

theorem of_rowValue {r : Except PyErr (List ℝ)} {b : ℕ} {z : ℝ} (h : rowValue r b = some z) : ∃ vs, r = .ok vs ∧ vs.getD b 0 = z := by
  cases r with
  | error e => simp [rowValue] at h
  | ok vs =>
    have h : vs[b]? = some z := h
    exact ⟨vs, rfl, by rw [List.getD_eq_getElem?_getD, h]; rfl⟩

/-- A log-probability of the form score minus partition, with the tangents and the derivatives of the partition: the score sums over the entries `Y`, the partition
depends on the entries `X`. -/
theorem best {G V κ : Type} (logProb : G → V → Except PyErr ℝ) (part : G → Except PyErr (List ℝ)) (x : G → κ → ℝ) (val : V → κ → ℝ) (b : ℕ) (X Y : Finset κ) (hXY : X ⊆ Y)
    (hL : ∀ g v, logProb g v = do
      let z ← part g
      .ok (∑ e ∈ Y, x g e * val v e - z.getD b 0))
    (p : G) (μ : κ → ℝ)
    (tan : ∀ g, ∃ z z', rowValue (part p) b = some z ∧ rowValue (part g) b = some z' ∧ z + ∑ e ∈ X, μ e * (x g e - x p e) ≤ z')
    (nudge : κ → ℝ → G) (h0 : ∀ e ∈ X, nudge e 0 = p)
    (hd : ∀ e ∈ X, ∀ v, LogProbGradient.HasNumDeriv (fun t => logProb (nudge e t) v) (val v e - μ e))
    (values : List V) (hv : ∀ v ∈ values, ∀ e, e ∉ X → val v e = 0) :
    ∃ L : G → V → ℝ, (∀ g v, logProb g v = .ok (L g v)) ∧
      (IsBest L values p ↔ ∀ e ∈ X, (values.map fun v => val v e).sum = values.length * μ e) := by
  choose z z' h1 h2 h3 using tan
  have hz : ∀ g, ∃ vs, part g = .ok vs ∧ vs.getD b 0 = z' g := fun g => of_rowValue (h2 g)
  let L : G → V → ℝ := fun g v => ∑ e ∈ Y, x g e * val v e - z' g
  have hLL : ∀ g v, logProb g v = .ok (L g v) := by
    intro g v
    obtain ⟨vs, e1, e2⟩ := hz g
    rw [hL, e1]
    change Except.ok (_ - vs.getD b 0) = _
    rw [e2]
  have hzp : ∀ g, z g = z' p := fun g => Option.some.inj ((h1 g).symm.trans (h2 p))
  refine ⟨L, hLL, ?_⟩
  refine best_iff X L p x val μ values (fun g v hv' => ?_) nudge h0 (fun e he v _ => ?_)
  · have e := h3 g
    rw [hzp] at e
    have cut : ∀ g, ∑ e ∈ Y, x g e * val v e = ∑ e ∈ X, x g e * val v e := fun g =>
      (sum_subset hXY fun e _ he => by rw [hv v hv' e he, mul_zero]).symm
    simp only [L]
    rw [cut, cut]
    have e2 : ∑ e ∈ X, (val v e - μ e) * (x g e - x p e) = ∑ e ∈ X, x g e * val v e - ∑ e ∈ X, x p e * val v e - ∑ e ∈ X, μ e * (x g e - x p e) := by
      simp only [← sum_sub_distrib]
      exact sum_congr rfl fun e _ => by ring
    rw [e2]
    linarith
  · obtain ⟨F, f1, f2⟩ := hd e he v
    have : (fun t => L (nudge e t) v) = F := funext fun t => Except.ok.inj ((hLL _ _).symm.trans (f1 t))
    rw [this]
    exact f2

/-! ### `TreeCRF` -/

/-- **C111, `TreeCRF`.** `partition` of any potentials `g` of the same shape lies above the tangent at `p`; the slopes are `marginals` of `p`. -/
theorem tree_tangent (p : T4 ℝ) (lengths : Option (List ℕ)) (h : TreeCRF.Valid p lengths) : ∃ μ, Dist.marginals CKYCRF.algo p lengths = .ok μ ∧
    ∀ b < p.d0, ∀ g : ℕ → ℕ → ℕ → ℕ → ℝ, ∃ z z', rowValue (Dist.partition CKYCRF.algo p lengths) b = some z ∧
      rowValue (Dist.partition CKYCRF.algo { p with get := g } lengths) b = some z' ∧
      z + ∑ i ∈ range p.d1, ∑ j ∈ range p.d2, ∑ a ∈ range p.d3, μ [b, i, j, a] * (g b i j a - p.get b i j a) ≤ z' := by
  obtain ⟨μ, hμ, -⟩ := (CKYCRFProofs.batchDP p lengths h).marginals_eq
  refine ⟨μ, hμ, fun b hb g => ?_⟩
  have D' := CKYCRFProofs.batchDP { p with get := g } lengths ⟨h.square, h.words, h.labels, h.lens⟩
  obtain ⟨z, z', h1, h2, h3⟩ := (CKYCRFProofs.batchDP p lengths h).tangent D' hμ b hb (range p.d1 ×ˢ range p.d2 ×ˢ range p.d3) (fun x => [b, x.1, x.2.1, x.2.2])
    (fun x _ y _ hxy => by simpa [Prod.ext_iff] using hxy)
    (by
      rintro e ⟨i, j, a, rfl, hij, hj, ha⟩
      have := (CKYCRFProofs.len_in h.words h.lens b hb).2
      have hs := h.square
      exact ⟨(i, j, a), mem3.2 ⟨by dsimp only; omega, by dsimp only; omega, ha⟩, rfl⟩)
    (fun _ _ => rfl) (fun _ _ y => y.elim)
  refine ⟨z, z', h1, h2, ?_⟩
  rw [← sum3 p.d1 p.d2 p.d3 fun i j a => μ [b, i, j, a] * (g b i j a - p.get b i j a)]
  exact h3

/-- **C111, `TreeCRF`.** Given observed events of row `b`, the sum of their log-probabilities is as large as possible at `p`, among all potentials of the same shape, if
and only if every entry of `marginals` of the row is the mean of the events. -/
theorem tree_best (p : T4 ℝ) (lengths : Option (List ℕ)) (h : TreeCRF.Valid p lengths) : ∃ μ, Dist.marginals CKYCRF.algo p lengths = .ok μ ∧
    ∀ b < p.d0, ∀ values : List (ℕ → ℕ → ℕ → ℝ), ∃ L : (ℕ → ℕ → ℕ → ℕ → ℝ) → (ℕ → ℕ → ℕ → ℝ) → ℝ,
      (∀ g v, CKYCRF.logProb { p with get := g } lengths b v = .ok (L g v)) ∧
      (IsBest L values p.get ↔ ∀ i < p.d1, ∀ j < p.d2, ∀ a < p.d3, (values.map fun v => v i j a).sum = values.length * μ [b, i, j, a]) := by
  obtain ⟨μ, hμ, tan⟩ := tree_tangent p lengths h
  obtain ⟨μ', hμ', hd⟩ := LogProbGradient.tree_logProb_grad p lengths h
  obtain rfl : μ = μ' := Except.ok.inj (hμ.symm.trans hμ')
  refine ⟨μ, hμ, fun b hb values => ?_⟩
  obtain ⟨L, h1, h2⟩ := best (κ := ℕ × ℕ × ℕ) (fun g v => CKYCRF.logProb { p with get := g } lengths b v) (fun g => Dist.partition CKYCRF.algo { p with get := g } lengths)
    (fun g e => if e.1 < p.d1 ∧ e.2.1 < p.d2 ∧ e.2.2 < p.d3 then g b e.1 e.2.1 e.2.2 else 0) (fun v e => if e.1 < p.d1 ∧ e.2.1 < p.d2 ∧ e.2.2 < p.d3 then v e.1 e.2.1 e.2.2 else 0) b
    (range p.d1 ×ˢ range p.d2 ×ˢ range p.d3) (range p.d1 ×ˢ range p.d2 ×ˢ range p.d3) subset_rfl
    (fun g v => by
      unfold CKYCRF.logProb
      dsimp only
      rw [LogProbGradient.score3, ← sum3 p.d1 p.d2 p.d3 fun i j k => g b i j k * v i j k]
      refine congrArg _ (funext fun z => ?_)
      congr 2
      exact sum_congr rfl fun e he => by rw [if_pos (mem3.1 he), if_pos (mem3.1 he)])
    p.get (fun e => μ [b, e.1, e.2.1, e.2.2])
    (fun g => by
      obtain ⟨z, z', e1, e2, e3⟩ := tan b hb g
      refine ⟨z, z', e1, e2, ?_⟩
      rw [← sum3 p.d1 p.d2 p.d3 fun i j a => μ [b, i, j, a] * (g b i j a - p.get b i j a)] at e3
      refine le_trans (le_of_eq ?_) e3
      congr 1
      exact sum_congr rfl fun e he => by rw [if_pos (mem3.1 he), if_pos (mem3.1 he)])
    (fun e t => (Gradient.nudge4 p b e.1 e.2.1 e.2.2 t).get) (fun e _ => by rw [Gradient.nudge4_zero])
    (fun e he v => by
      rw [if_pos (mem3.1 he)]
      obtain ⟨m1, m2, m3⟩ := mem3.1 he
      exact hd b hb v _ m1 _ (h.square ▸ m2) _ m3)
    values (fun v _ e he => if_neg fun hc => he (mem3.2 hc))
  refine ⟨L, h1, h2.trans ⟨fun H i hi j hj a ha => ?_, fun H e he => ?_⟩⟩
  · have := H (i, j, a) (mem3.2 ⟨hi, hj, ha⟩)
    simpa [hi, hj, ha] using this
  · obtain ⟨m1, m2, m3⟩ := mem3.1 he
    have := H _ m1 _ m2 _ m3
    simpa [m1, m2, m3] using this

/-! ### `LinearChainCRF` -/

open GradientChain in
/-- The score of a sequence changes by the changes of the potentials that it uses. -/
theorem stand_change {C : ℕ} (L : ℕ) (φ ψ : ℕ → Fin C → Fin C → ℝ) (x : Tags L C × (Fin L → Bool)) :
    standScore L ψ x - standScore L φ x = ∑ n ∈ range L, ∑ i, ∑ j, (ψ n i j - φ n i j) * standUses L n i j x := by
  unfold standScore standUses
  rw [← sum_sub_distrib]
  simp only [mul_sum]
  have e : ∑ n ∈ range L, ∑ i : Fin C, ∑ j : Fin C, ∑ m : Fin L, (ψ n i j - φ n i j) * (if (m : ℕ) = n ∧ x.2 m = true ∧ x.1 m.succ = i ∧ x.1 m.castSucc = j then (1 : ℝ) else 0) =
      ∑ m : Fin L, ∑ n ∈ range L, ∑ i : Fin C, ∑ j : Fin C, (ψ n i j - φ n i j) * (if (m : ℕ) = n ∧ x.2 m = true ∧ x.1 m.succ = i ∧ x.1 m.castSucc = j then (1 : ℝ) else 0) := by
    symm
    rw [sum_comm]
    refine sum_congr rfl fun n _ => ?_
    rw [sum_comm]
    refine sum_congr rfl fun i _ => ?_
    rw [sum_comm]
  rw [e]
  refine sum_congr rfl fun m _ => ?_
  rw [sum_eq_single (m : ℕ), sum_eq_single (x.1 m.succ), sum_eq_single (x.1 m.castSucc)]
  · cases x.2 m <;> simp
  · intro j _ hj; rw [if_neg fun hc => hj hc.2.2.2.symm, mul_zero]
  · simp
  · intro i _ hi; exact sum_eq_zero fun j _ => by rw [if_neg fun hc => hi hc.2.2.1.symm, mul_zero]
  · simp
  · intro n _ hn; exact sum_eq_zero fun i _ => sum_eq_zero fun j _ => by rw [if_neg fun hc => hn hc.1.symm, mul_zero]
  · intro hc; exact absurd (mem_range.2 m.2) hc

open GradientChain in
/-- The mean change of the scores from `p` to other potentials, edge by edge. -/
theorem chain_slope (p : T4 ℝ) (lengths : Option (List ℕ)) (h : LinearChain.Valid p lengths) : ∃ μ, Dist.marginals _root_.LinearChain.algo p lengths = .ok μ ∧
    ∀ b < p.d0, ∀ g : ℕ → ℕ → ℕ → ℕ → ℝ,
    ∑ n ∈ range (LinearChain.numEdges p lengths b), ∑ i ∈ range p.d2, ∑ j ∈ range p.d3, μ [b, n, i, j] * (g b n i j - p.get b n i j) =
      Gibbs.expect (standScore (LinearChain.numEdges p lengths b) (LinearChain.row p b)) fun x =>
        standScore (LinearChain.numEdges p lengths b) (LinearChain.row ({ p with get := g } : T4 ℝ) b) x - standScore (LinearChain.numEdges p lengths b) (LinearChain.row p b) x := by
  obtain ⟨μ, hμ, h1⟩ := marginals_stand p lengths h
  refine ⟨μ, hμ, fun b hb g => ?_⟩
  simp only [stand_change]
  rw [← h.square]
  simp only [Gibbs.expect, mul_sum]
  symm
  rw [sum_comm]
  refine sum_congr rfl fun n hn => ?_
  rw [sum_comm, ← Fin.sum_univ_eq_sum_range (fun i => ∑ j ∈ range p.d2, μ [b, n, i, j] * (g b n i j - p.get b n i j))]
  refine sum_congr rfl fun i _ => ?_
  rw [sum_comm, ← Fin.sum_univ_eq_sum_range (fun j => μ [b, n, i, j] * (g b n i j - p.get b n i j))]
  refine sum_congr rfl fun j _ => ?_
  rw [h1 b hb n (mem_range.1 hn) i j, Gibbs.expect, sum_mul]
  exact sum_congr rfl fun x _ => by simp only [LinearChain.row]; ring

open GradientChain in
/-- **C111, `LinearChainCRF`.** The sum is over the edges of the row. -/
theorem chain_tangent (p : T4 ℝ) (lengths : Option (List ℕ)) (h : LinearChain.Valid p lengths) : ∃ μ, Dist.marginals _root_.LinearChain.algo p lengths = .ok μ ∧
    ∀ b < p.d0, ∀ g : ℕ → ℕ → ℕ → ℕ → ℝ, ∃ z z', rowValue (Dist.partition _root_.LinearChain.algo p lengths) b = some z ∧
      rowValue (Dist.partition _root_.LinearChain.algo { p with get := g } lengths) b = some z' ∧
      z + ∑ n ∈ range (LinearChain.numEdges p lengths b), ∑ i ∈ range p.d2, ∑ j ∈ range p.d3, μ [b, n, i, j] * (g b n i j - p.get b n i j) ≤ z' := by
  have : Nonempty (Fin p.d2) := ⟨⟨0, h.classes⟩⟩
  obtain ⟨μ, hμ, hs⟩ := chain_slope p lengths h
  refine ⟨μ, hμ, fun b hb g => ⟨_, _, partition_stand p lengths h b hb, partition_stand { p with get := g } lengths ⟨h.square, h.edges, h.classes, h.lens⟩ b hb, ?_⟩⟩
  have e := Gibbs.tangent_le (standScore (LinearChain.numEdges p lengths b) (LinearChain.row p b))
    (standScore (LinearChain.numEdges p lengths b) (LinearChain.row ({ p with get := g } : T4 ℝ) b))
  rw [hs b hb g, add_assoc]
  exact add_le_add_right e _

/-- **C111, `LinearChainCRF`.** Given observed events of row `b` (tables without entries past the end of the row), the sum of their log-probabilities is as large as
possible at `p`, among all potentials of the same shape, if and only if every entry of `marginals` at the edges of the row is the mean of the events. -/
theorem chain_best (p : T4 ℝ) (lengths : Option (List ℕ)) (h : LinearChain.Valid p lengths) : ∃ μ, Dist.marginals _root_.LinearChain.algo p lengths = .ok μ ∧
    ∀ b < p.d0, ∀ values : List (ℕ → ℕ → ℕ → ℝ), (∀ v ∈ values, ∀ n i j, LinearChain.numEdges p lengths b ≤ n → v n i j = 0) →
      ∃ L : (ℕ → ℕ → ℕ → ℕ → ℝ) → (ℕ → ℕ → ℕ → ℝ) → ℝ, (∀ g v, _root_.LinearChain.logProb { p with get := g } lengths b v = .ok (L g v)) ∧
        (IsBest L values p.get ↔
          ∀ n < LinearChain.numEdges p lengths b, ∀ i < p.d2, ∀ j < p.d3, (values.map fun v => v n i j).sum = values.length * μ [b, n, i, j]) := by
  obtain ⟨μ, hμ, tan⟩ := chain_tangent p lengths h
  obtain ⟨μ', hμ', hd⟩ := LogProbGradient.chain_logProb_grad p lengths h
  obtain rfl : μ = μ' := Except.ok.inj (hμ.symm.trans hμ')
  refine ⟨μ, hμ, fun b hb values hv => ?_⟩
  have hN : LinearChain.numEdges p lengths b ≤ p.d1 := by
    have := LinearChainProofs.lenOf_le h.lens b
    unfold LinearChain.numEdges
    omega
  obtain ⟨L, h1, h2⟩ := best (κ := ℕ × ℕ × ℕ) (fun g v => _root_.LinearChain.logProb { p with get := g } lengths b v)
    (fun g => Dist.partition _root_.LinearChain.algo { p with get := g } lengths)
    (fun g e => if e.1 < p.d1 ∧ e.2.1 < p.d2 ∧ e.2.2 < p.d3 then g b e.1 e.2.1 e.2.2 else 0) (fun v e => if e.1 < p.d1 ∧ e.2.1 < p.d2 ∧ e.2.2 < p.d3 then v e.1 e.2.1 e.2.2 else 0) b
    (range (LinearChain.numEdges p lengths b) ×ˢ range p.d2 ×ˢ range p.d3) (range p.d1 ×ˢ range p.d2 ×ˢ range p.d3)
    (fun e he => by
      obtain ⟨m1, m2, m3⟩ := mem3.1 he
      exact mem3.2 ⟨by omega, m2, m3⟩)
    (fun g v => by
      unfold _root_.LinearChain.logProb
      dsimp only
      rw [LogProbGradient.score3, ← sum3 p.d1 p.d2 p.d3 fun i j k => g b i j k * v i j k]
      refine congrArg _ (funext fun z => ?_)
      congr 2
      exact sum_congr rfl fun e he => by rw [if_pos (mem3.1 he), if_pos (mem3.1 he)])
    p.get (fun e => μ [b, e.1, e.2.1, e.2.2])
    (fun g => by
      obtain ⟨z, z', e1, e2, e3⟩ := tan b hb g
      refine ⟨z, z', e1, e2, ?_⟩
      rw [← sum3 (LinearChain.numEdges p lengths b) p.d2 p.d3 fun i j a => μ [b, i, j, a] * (g b i j a - p.get b i j a)] at e3
      refine le_trans (le_of_eq ?_) e3
      congr 1
      refine sum_congr rfl fun e he => ?_
      obtain ⟨m1, m2, m3⟩ := mem3.1 he
      have hc : e.1 < p.d1 ∧ e.2.1 < p.d2 ∧ e.2.2 < p.d3 := ⟨by omega, m2, m3⟩
      rw [if_pos hc, if_pos hc])
    (fun e t => (GradientChain.nudge p b e.1 e.2.1 e.2.2 t).get) (fun e _ => by simp [GradientChain.nudge])
    (fun e he v => by
      obtain ⟨m1, m2, m3⟩ := mem3.1 he
      rw [if_pos ⟨by omega, m2, m3⟩]
      exact hd b hb v _ m1 _ m2 _ (h.square ▸ m3))
    values (fun v hv' e he => by
      split_ifs with hc
      · exact hv v hv' _ _ _ (not_lt.1 fun h => he (mem3.2 ⟨h, hc.2⟩))
      · rfl)
  refine ⟨L, h1, h2.trans ⟨fun H i hi j hj a ha => ?_, fun H e he => ?_⟩⟩
  · have := H (i, j, a) (mem3.2 ⟨hi, hj, ha⟩)
    have hi' : i < p.d1 := by omega
    simpa [hi', hj, ha] using this
  · obtain ⟨m1, m2, m3⟩ := mem3.1 he
    have := H _ m1 _ m2 _ m3
    have hi' : e.1 < p.d1 := by omega
    simpa [hi', m2, m3] using this

/-! ### `SemiMarkovCRF` -/

/-- **C111, `SemiMarkovCRF`.** The sum is over the steps of the row. -/
theorem semimarkov_tangent (p : T5 ℝ) (lengths : Option (List ℕ)) (h : SemiMarkov.Valid p lengths) : ∃ μ, Dist.marginals _root_.SemiMarkov.algo p lengths = .ok μ ∧
    ∀ b < p.d0, ∀ g : ℕ → ℕ → ℕ → ℕ → ℕ → ℝ, ∃ z z', rowValue (Dist.partition _root_.SemiMarkov.algo p lengths) b = some z ∧
      rowValue (Dist.partition _root_.SemiMarkov.algo { p with get := g } lengths) b = some z' ∧
      z + ∑ n ∈ range (SemiMarkov.steps p lengths b), ∑ k ∈ range p.d2, ∑ i ∈ range p.d3, ∑ j ∈ range p.d4,
        μ [b, n, k, i, j] * (g b n k i j - p.get b n k i j) ≤ z' := by
  have hK := SemiMarkov.hK h
  obtain ⟨μ, hμ, -⟩ := (SemiMarkovProofs.batchDP p lengths h hK).marginals_eq
  refine ⟨μ, hμ, fun b hb g => ?_⟩
  have D' : BatchDP _root_.SemiMarkov.algo { p with get := g } lengths p.d0 (SemiMarkovProofs.at5 { p with get := g })
      (SemiMarkovProofs.Entry p lengths) (ι := fun b => Segmentation p.d2 p.d3 (SemiMarkovProofs.steps p lengths b)) (π := SemiMarkovProofs.Ph p lengths hK)
      (fun b => SemiMarkovProofs.segParts b) (fun _ y => 2 ^ Nat.clog 2 p.d1 - y.2.1.length) (fun _ => AtomChain.Phantom.atoms) :=
    SemiMarkovProofs.batchDP { p with get := g } lengths ⟨h.rows, h.square, h.classes, h.positions, h.segs, h.lens⟩ hK
  obtain ⟨z, z', h1, h2, h3⟩ := (SemiMarkovProofs.batchDP p lengths h hK).tangent D' hμ b hb
    (range (SemiMarkov.steps p lengths b) ×ˢ range p.d2 ×ˢ range p.d3 ×ˢ range p.d4) (fun x => [b, x.1, x.2.1, x.2.2.1, x.2.2.2])
    (fun x _ y _ hxy => by simpa [Prod.ext_iff] using hxy)
    (by
      rintro e ⟨n, k, c, c', rfl, hn, -, hk⟩
      exact ⟨(n, k, c, c'), mem4.2 ⟨hn, hk, c.2, h.square ▸ c'.2⟩, rfl⟩)
    (fun _ _ => rfl) (fun x hx y hy => by
      unfold AtomChain.Phantom.atoms AtomChain.Path.atoms at hy
      obtain ⟨m, -, h1⟩ := Multiset.mem_map.1 hy
      exact Gradient.not_masked _ _ _ _ _ _ _ _ _ _ _ _ (mem4.1 hx).1 (h1 ▸ y.1.atom_mem m))
  refine ⟨z, z', h1, h2, ?_⟩
  rw [← sum4 _ p.d2 p.d3 p.d4 fun n k i j => μ [b, n, k, i, j] * (g b n k i j - p.get b n k i j)]
  exact h3

/-- **C111, `SemiMarkovCRF`.** Given observed events of row `b` (tables without entries past the end of the row), the sum of their log-probabilities is as large as
possible at `p`, among all potentials of the same shape, if and only if every entry of `marginals` at the steps of the row is the mean of the events. -/
theorem semimarkov_best (p : T5 ℝ) (lengths : Option (List ℕ)) (h : SemiMarkov.Valid p lengths) : ∃ μ, Dist.marginals _root_.SemiMarkov.algo p lengths = .ok μ ∧
    ∀ b < p.d0, ∀ values : List (ℕ → ℕ → ℕ → ℕ → ℝ), (∀ v ∈ values, ∀ n k i j, SemiMarkov.steps p lengths b ≤ n → v n k i j = 0) →
      ∃ L : (ℕ → ℕ → ℕ → ℕ → ℕ → ℝ) → (ℕ → ℕ → ℕ → ℕ → ℝ) → ℝ, (∀ g v, _root_.SemiMarkov.logProb { p with get := g } lengths b v = .ok (L g v)) ∧
        (IsBest L values p.get ↔ ∀ n < SemiMarkov.steps p lengths b, ∀ k < p.d2, ∀ i < p.d3, ∀ j < p.d4,
          (values.map fun v => v n k i j).sum = values.length * μ [b, n, k, i, j]) := by
  obtain ⟨μ, hμ, tan⟩ := semimarkov_tangent p lengths h
  obtain ⟨μ', hμ', hd⟩ := LogProbGradient.semimarkov_logProb_grad p lengths h
  obtain rfl : μ = μ' := Except.ok.inj (hμ.symm.trans hμ')
  refine ⟨μ, hμ, fun b hb values hv => ?_⟩
  have hN : SemiMarkov.steps p lengths b ≤ p.d1 := by
    have := LinearChainProofs.lenOf_le h.lens b
    unfold SemiMarkov.steps
    omega
  obtain ⟨L, h1, h2⟩ := best (κ := ℕ × ℕ × ℕ × ℕ) (fun g v => _root_.SemiMarkov.logProb { p with get := g } lengths b v)
    (fun g => Dist.partition _root_.SemiMarkov.algo { p with get := g } lengths)
    (fun g e => if e.1 < p.d1 ∧ e.2.1 < p.d2 ∧ e.2.2.1 < p.d3 ∧ e.2.2.2 < p.d4 then g b e.1 e.2.1 e.2.2.1 e.2.2.2 else 0)
    (fun v e => if e.1 < p.d1 ∧ e.2.1 < p.d2 ∧ e.2.2.1 < p.d3 ∧ e.2.2.2 < p.d4 then v e.1 e.2.1 e.2.2.1 e.2.2.2 else 0) b
    (range (SemiMarkov.steps p lengths b) ×ˢ range p.d2 ×ˢ range p.d3 ×ˢ range p.d4) (range p.d1 ×ˢ range p.d2 ×ˢ range p.d3 ×ˢ range p.d4)
    (fun e he => by
      obtain ⟨m1, m2⟩ := mem4.1 he
      exact mem4.2 ⟨by omega, m2⟩)
    (fun g v => by
      unfold _root_.SemiMarkov.logProb
      dsimp only
      rw [LogProbGradient.score4, ← sum4 p.d1 p.d2 p.d3 p.d4 fun i j k l => g b i j k l * v i j k l]
      refine congrArg _ (funext fun z => ?_)
      congr 2
      exact sum_congr rfl fun e he => by rw [if_pos (mem4.1 he), if_pos (mem4.1 he)])
    p.get (fun e => μ [b, e.1, e.2.1, e.2.2.1, e.2.2.2])
    (fun g => by
      obtain ⟨z, z', e1, e2, e3⟩ := tan b hb g
      refine ⟨z, z', e1, e2, ?_⟩
      rw [← sum4 _ p.d2 p.d3 p.d4 fun i j k l => μ [b, i, j, k, l] * (g b i j k l - p.get b i j k l)] at e3
      refine le_trans (le_of_eq ?_) e3
      congr 1
      refine sum_congr rfl fun e he => ?_
      obtain ⟨m1, m2⟩ := mem4.1 he
      have hc : e.1 < p.d1 ∧ e.2.1 < p.d2 ∧ e.2.2.1 < p.d3 ∧ e.2.2.2 < p.d4 := ⟨by omega, m2⟩
      rw [if_pos hc, if_pos hc])
    (fun e t => (Gradient.nudge5 p b e.1 e.2.1 e.2.2.1 e.2.2.2 t).get) (fun e _ => by rw [Gradient.nudge5_zero])
    (fun e he v => by
      obtain ⟨m1, m2, m3, m4⟩ := mem4.1 he
      rw [if_pos ⟨by omega, m2, m3, m4⟩]
      exact hd b hb v _ m1 _ m2 _ m3 _ (h.square ▸ m4))
    values (fun v hv' e he => by
      split_ifs with hc
      · exact hv v hv' _ _ _ _ (not_lt.1 fun h => he (mem4.2 ⟨h, hc.2⟩))
      · rfl)
  refine ⟨L, h1, h2.trans ⟨fun H n hn k hk i hi j hj => ?_, fun H e he => ?_⟩⟩
  · have := H (n, k, i, j) (mem4.2 ⟨hn, hk, hi, hj⟩)
    have hn' : n < p.d1 := by omega
    simpa [hn', hk, hi, hj] using this
  · obtain ⟨m1, m2, m3, m4⟩ := mem4.1 he
    have := H _ m1 _ m2 _ m3 _ m4
    have hi' : e.1 < p.d1 := by omega
    simpa [hi', m2, m3, m4] using this

/-! ### `DependencyCRF` -/

theorem arc_tangent (mr : Bool) (q : DepTree.Arcs ℝ) (lengths : Option (List ℕ)) (h : DepTreeProofs.Valid mr q lengths) :
    ∃ μ, DepTree.marginals mr q lengths = .ok μ ∧ ∀ b < q.d0, ∀ g : ℕ → ℕ → ℕ → ℕ → ℝ, ∃ z z', rowValue (DepTree.partition mr q lengths) b = some z ∧
      rowValue (DepTree.partition mr { q with get := g } lengths) b = some z' ∧
      z + ∑ i ∈ range q.d1, ∑ j ∈ range q.d2, ∑ l ∈ range q.labels, μ (DepTreeProofs.cellTag (decide q.labeled) b i j l) * (g b i j l - q.get b i j l) ≤ z' := by
  have hv : ∀ q' : DepTree.Arcs ℝ, q'.rank = q.rank → q'.d1 = q.d1 → q'.d2 = q.d2 → DepTree.convert DepTree.negBig q' = .ok (DepTreeProofs.conv DepTree.negBig q') :=
    fun q' h1 h2 h3 => DepTreeProofs.convert_ok _ (by rw [h1]; exact h.rank) (by rw [h2, h3]; exact h.square)
  obtain ⟨μ, hμ, -⟩ := (DepTreeProofs.batchDP mr DepTree.negBig q lengths h).marginals_eq
  refine ⟨μ, by rw [DepTree.marginals, hv q rfl rfl rfl]; exact hμ, fun b hb g => ?_⟩
  have hl : ∀ l < q.labels, q.labeled ∨ l = 0 := by
    intro l hl
    rcases h.rank with h3 | h4
    · rw [DepTreeProofs.labels_one h3] at hl; right; omega
    · exact Or.inl h4
  have D' : BatchDP (DepTree.algo mr) (DepTreeProofs.conv DepTree.negBig { q with get := g }) lengths q.d0
      (DepTreeProofs.atQ DepTree.negBig { q with get := g }) (fun b => DepTreeProofs.Entry (decide q.labeled) q.labels (lenOf q.d1 lengths b) b)
      (ι := fun b => LabelledTrees mr (lenOf q.d1 lengths b) q.labels) (π := fun _ => Empty) (fun b => DepTreeProofs.labParts (decide q.labeled) b)
      (fun b _ => DepTreeProofs.onesOf mr (lenOf q.d1 lengths b)) (fun _ y => y.elim) :=
    DepTreeProofs.batchDP mr DepTree.negBig { q with get := g } lengths ⟨h.rank, h.square, h.labels, h.batch, h.words, h.lens⟩
  obtain ⟨z, z', h1, h2, h3⟩ := (DepTreeProofs.batchDP mr DepTree.negBig q lengths h).tangent D' hμ b hb
    (range q.d1 ×ˢ range q.d2 ×ˢ range q.labels) (fun x => DepTreeProofs.cellTag (decide q.labeled) b x.1 x.2.1 x.2.2)
    (fun x hx y hy hxy => by
      obtain ⟨-, e1, e2, e3⟩ := DepTreeProofs.cellTag_inj hxy
      refine Prod.ext e1 (Prod.ext e2 ?_)
      rcases hl _ (mem3.1 hx).2.2 with hq | hx0
      · exact e3 (decide_eq_true hq)
      · rcases hl _ (mem3.1 hy).2.2 with hq | hy0
        · exact e3 (decide_eq_true hq)
        · exact hx0.trans hy0.symm)
    (by
      rintro e ⟨h', k, l, rfl, hh, hk, -, hl'⟩
      have e1 := DepTreeProofs.arcCell_lt hh hk
      have e2 : lenOf q.d1 lengths b ≤ q.d1 := (DepTreeProofs.len_le h hb).1
      have e3 := h.square
      exact ⟨((arcCell h' k).1, (arcCell h' k).2, l), mem3.2 ⟨by dsimp only; omega, by dsimp only; omega, hl'⟩, rfl⟩)
    (fun x _ => by simp [DepTreeProofs.cellTag]) (fun _ _ y => y.elim)
  refine ⟨z, z', by rw [DepTree.partition, hv q rfl rfl rfl]; exact h1, by rw [DepTree.partition, hv { q with get := g } rfl rfl rfl]; exact h2, ?_⟩
  rw [← sum3 q.d1 q.d2 q.labels fun i j l => μ (DepTreeProofs.cellTag (decide q.labeled) b i j l) * (g b i j l - q.get b i j l)]
  refine le_trans (le_of_eq ?_) h3
  congr 1
  refine sum_congr rfl fun x hx => ?_
  have e4 := hl _ (mem3.1 hx).2.2
  rw [DepTreeProofs.atQ_cell _ q _ _ _ _ e4]
  have := DepTreeProofs.atQ_cell DepTree.negBig { q with get := g } b x.1 x.2.1 x.2.2 e4
  exact congrArg (fun y => _ * (y - _)) this.symm

theorem arc_best (mr : Bool) (q : DepTree.Arcs ℝ) (lengths : Option (List ℕ)) (h : DepTreeProofs.Valid mr q lengths) {μ : List ℕ → ℝ} (hμ : DepTree.marginals mr q lengths = .ok μ)
    (b : ℕ) (hb : b < q.d0)
    (hd : ∀ value : ℕ → ℕ → ℕ → ℝ, ∀ i < q.d1, ∀ j < q.d1, ∀ l < q.labels, LogProbGradient.HasNumDeriv
      (fun t => DepTree.logProb mr (Gradient.nudgeArc q b i j l t) lengths b value) (value i j l - μ (DepTreeProofs.cellTag (decide q.labeled) b i j l)))
    (values : List (ℕ → ℕ → ℕ → ℝ)) :
    ∃ L : (ℕ → ℕ → ℕ → ℕ → ℝ) → (ℕ → ℕ → ℕ → ℝ) → ℝ, (∀ g v, DepTree.logProb mr { q with get := g } lengths b v = .ok (L g v)) ∧
      (IsBest L values q.get ↔ ∀ i < q.d1, ∀ j < q.d2, ∀ l < q.labels,
        (values.map fun v => v i j l).sum = values.length * μ (DepTreeProofs.cellTag (decide q.labeled) b i j l)) := by
  obtain ⟨μ', hμ', tan⟩ := arc_tangent mr q lengths h
  obtain rfl : μ = μ' := Except.ok.inj (hμ.symm.trans hμ')
  obtain ⟨L, h1, h2⟩ := best (κ := ℕ × ℕ × ℕ) (fun g v => DepTree.logProb mr { q with get := g } lengths b v) (fun g => DepTree.partition mr { q with get := g } lengths)
    (fun g e => if e.1 < q.d1 ∧ e.2.1 < q.d2 ∧ e.2.2 < q.labels then g b e.1 e.2.1 e.2.2 else 0)
    (fun v e => if e.1 < q.d1 ∧ e.2.1 < q.d2 ∧ e.2.2 < q.labels then v e.1 e.2.1 e.2.2 else 0) b
    (range q.d1 ×ˢ range q.d2 ×ˢ range q.labels) (range q.d1 ×ˢ range q.d2 ×ˢ range q.labels) subset_rfl
    (fun g v => by
      have hl : DepTree.Arcs.labels ({ q with get := g } : DepTree.Arcs ℝ) = q.labels := rfl
      unfold DepTree.logProb
      dsimp only
      rw [LogProbGradient.score3, hl, ← sum3 q.d1 q.d2 q.labels fun i j k => g b i j k * v i j k]
      refine congrArg _ (funext fun z => ?_)
      congr 2
      exact sum_congr rfl fun e he => by rw [if_pos (mem3.1 he), if_pos (mem3.1 he)])
    q.get (fun e => μ (DepTreeProofs.cellTag (decide q.labeled) b e.1 e.2.1 e.2.2))
    (fun g => by
      obtain ⟨z, z', e1, e2, e3⟩ := tan b hb g
      refine ⟨z, z', e1, e2, ?_⟩
      rw [← sum3 q.d1 q.d2 q.labels fun i j l => μ (DepTreeProofs.cellTag (decide q.labeled) b i j l) * (g b i j l - q.get b i j l)] at e3
      refine le_trans (le_of_eq ?_) e3
      congr 1
      exact sum_congr rfl fun e he => by rw [if_pos (mem3.1 he), if_pos (mem3.1 he)])
    (fun e t => (Gradient.nudgeArc q b e.1 e.2.1 e.2.2 t).get) (fun e _ => by rw [Gradient.nudgeArc_zero])
    (fun e he v => by
      rw [if_pos (mem3.1 he)]
      obtain ⟨m1, m2, m3⟩ := mem3.1 he
      exact hd v _ m1 _ (h.square ▸ m2) _ m3)
    values (fun v _ e he => if_neg fun hc => he (mem3.2 hc))
  refine ⟨L, h1, h2.trans ⟨fun H i hi j hj a ha => ?_, fun H e he => ?_⟩⟩
  · have := H (i, j, a) (mem3.2 ⟨hi, hj, ha⟩)
    simpa [hi, hj, ha] using this
  · obtain ⟨m1, m2, m3⟩ := mem3.1 he
    have := H _ m1 _ m2 _ m3
    simpa [m1, m2, m3] using this

/-- **C111, `DependencyCRF`.** `partition` of any arc scores `g` of the same shape lies above the tangent at `q`; the slopes are `marginals` of `q`. -/
theorem dependency_tangent (mr : Bool) (q : DepTree.Arcs ℝ) (lengths : Option (List ℕ)) (h : Dependency.Valid mr q lengths) :
    ∃ μ, DepTree.marginals mr q lengths = .ok μ ∧ ∀ b < q.d0, ∀ g : ℕ → ℕ → ℕ → ℕ → ℝ, ∃ z z', rowValue (DepTree.partition mr q lengths) b = some z ∧
      rowValue (DepTree.partition mr { q with get := g } lengths) b = some z' ∧
      z + ∑ i ∈ range q.d1, ∑ j ∈ range q.d2, μ [b, i, j] * (g b i j 0 - q.get b i j 0) ≤ z' := by
  obtain ⟨μ, h1, h2⟩ := arc_tangent mr q lengths h.toValid
  refine ⟨μ, h1, fun b hb g => ?_⟩
  obtain ⟨z, z', e1, e2, e3⟩ := h2 b hb g
  refine ⟨z, z', e1, e2, ?_⟩
  simpa [DepTreeProofs.labels_one h.rank, DepTreeProofs.cellTag, DepTreeProofs.not_labeled h.rank] using e3

/-- **C111, `DependencyCRF`.** The sum of the log-probabilities of observed events of row `b` is as large as possible at `q`, among all arc scores of the same shape,
if and only if every entry of `marginals` of the row is the mean of the events. -/
theorem dependency_best (mr : Bool) (q : DepTree.Arcs ℝ) (lengths : Option (List ℕ)) (h : Dependency.Valid mr q lengths) :
    ∃ μ, DepTree.marginals mr q lengths = .ok μ ∧ ∀ b < q.d0, ∀ values : List (ℕ → ℕ → ℕ → ℝ), ∃ L : (ℕ → ℕ → ℕ → ℕ → ℝ) → (ℕ → ℕ → ℕ → ℝ) → ℝ,
      (∀ g v, DepTree.logProb mr { q with get := g } lengths b v = .ok (L g v)) ∧
      (IsBest L values q.get ↔ ∀ i < q.d1, ∀ j < q.d2, (values.map fun v => v i j 0).sum = values.length * μ [b, i, j]) := by
  obtain ⟨μ, hμ, hd⟩ := LogProbGradient.dependency_logProb_grad mr q lengths h
  refine ⟨μ, hμ, fun b hb values => ?_⟩
  obtain ⟨L, h1, h2⟩ := arc_best mr q lengths h.toValid hμ b hb (fun v i hi j hj l hl => by
    rw [DepTreeProofs.labels_one h.rank] at hl
    obtain rfl : l = 0 := by omega
    have := hd b hb v i hi j hj
    rwa [DepTreeProofs.cellTag, DepTreeProofs.not_labeled h.rank]) values
  refine ⟨L, h1, h2.trans ?_⟩
  simp [DepTreeProofs.labels_one h.rank, DepTreeProofs.cellTag, DepTreeProofs.not_labeled h.rank]

/-- **C111, `DependencyCRF` with labels.** -/
theorem labelled_tangent (mr : Bool) (q : DepTree.Arcs ℝ) (lengths : Option (List ℕ)) (h : LabelledDependency.Valid mr q lengths) :
    ∃ μ, DepTree.marginals mr q lengths = .ok μ ∧ ∀ b < q.d0, ∀ g : ℕ → ℕ → ℕ → ℕ → ℝ, ∃ z z', rowValue (DepTree.partition mr q lengths) b = some z ∧
      rowValue (DepTree.partition mr { q with get := g } lengths) b = some z' ∧
      z + ∑ i ∈ range q.d1, ∑ j ∈ range q.d2, ∑ l ∈ range q.labels, μ [b, i, j, l] * (g b i j l - q.get b i j l) ≤ z' := by
  obtain ⟨μ, h1, h2⟩ := arc_tangent mr q lengths h.toValid
  refine ⟨μ, h1, fun b hb g => ?_⟩
  obtain ⟨z, z', e1, e2, e3⟩ := h2 b hb g
  refine ⟨z, z', e1, e2, ?_⟩
  simpa [DepTreeProofs.cellTag, DepTreeProofs.is_labeled h.rank] using e3

/-- **C111, `DependencyCRF` with labels.** -/
theorem labelled_best (mr : Bool) (q : DepTree.Arcs ℝ) (lengths : Option (List ℕ)) (h : LabelledDependency.Valid mr q lengths) :
    ∃ μ, DepTree.marginals mr q lengths = .ok μ ∧ ∀ b < q.d0, ∀ values : List (ℕ → ℕ → ℕ → ℝ), ∃ L : (ℕ → ℕ → ℕ → ℕ → ℝ) → (ℕ → ℕ → ℕ → ℝ) → ℝ,
      (∀ g v, DepTree.logProb mr { q with get := g } lengths b v = .ok (L g v)) ∧
      (IsBest L values q.get ↔ ∀ i < q.d1, ∀ j < q.d2, ∀ l < q.labels, (values.map fun v => v i j l).sum = values.length * μ [b, i, j, l]) := by
  obtain ⟨μ, hμ, hd⟩ := LogProbGradient.labelled_logProb_grad mr q lengths h
  refine ⟨μ, hμ, fun b hb values => ?_⟩
  obtain ⟨L, h1, h2⟩ := arc_best mr q lengths h.toValid hμ b hb (fun v i hi j hj l hl => by
    have := hd b hb v i hi j hj l hl
    rwa [DepTreeProofs.cellTag, DepTreeProofs.is_labeled h.rank]) values
  refine ⟨L, h1, h2.trans ?_⟩
  simp [DepTreeProofs.cellTag, DepTreeProofs.is_labeled h.rank]

/-! ### The hypotheses are met -/

/-- The expected table itself, observed twice, makes the sample potentials a maximum. -/
example : ∃ L : (ℕ → ℕ → ℕ → ℕ → ℝ) → (ℕ → ℕ → ℕ → ℝ) → ℝ, ∃ v, (∀ g v, CKYCRF.logProb { TreeCRF.sample with get := g } (some [3, 2]) 1 v = .ok (L g v)) ∧
    IsBest L [v, v] TreeCRF.sample.get := by
  obtain ⟨μ, -, h⟩ := tree_best TreeCRF.sample _ TreeCRF.sample_valid
  obtain ⟨L, h1, h2⟩ := h 1 (by decide) [fun i j a => μ [1, i, j, a], fun i j a => μ [1, i, j, a]]
  exact ⟨L, fun i j a => μ [1, i, j, a], h1, h2.2 fun i _ j _ a _ => by simp; ring⟩

example : ∃ L : (ℕ → ℕ → ℕ → ℕ → ℝ) → (ℕ → ℕ → ℕ → ℝ) → ℝ, ∃ v,
    (∀ g v, _root_.LinearChain.logProb { LinearChain.sample with get := g } (some [3, 2]) 1 v = .ok (L g v)) ∧ IsBest L [v] LinearChain.sample.get := by
  obtain ⟨μ, -, h⟩ := chain_best LinearChain.sample _ LinearChain.sample_valid
  obtain ⟨L, h1, h2⟩ := h 1 (by decide) [fun n i j => if n < LinearChain.numEdges LinearChain.sample (some [3, 2]) 1 then μ [1, n, i, j] else 0]
    (by simp only [List.mem_singleton, forall_eq]; exact fun n i j hn => if_neg (by omega))
  exact ⟨L, _, h1, h2.2 fun n hn i _ j _ => by simp [hn]⟩

example : ∃ L : (ℕ → ℕ → ℕ → ℕ → ℕ → ℝ) → (ℕ → ℕ → ℕ → ℕ → ℝ) → ℝ, ∃ v,
    (∀ g v, _root_.SemiMarkov.logProb { SemiMarkov.sample with get := g } (some [4, 3]) 1 v = .ok (L g v)) ∧ IsBest L [v] SemiMarkov.sample.get := by
  obtain ⟨μ, -, h⟩ := semimarkov_best SemiMarkov.sample _ SemiMarkov.sample_valid
  obtain ⟨L, h1, h2⟩ := h 1 (by decide) [fun n k i j => if n < SemiMarkov.steps SemiMarkov.sample (some [4, 3]) 1 then μ [1, n, k, i, j] else 0]
    (by simp only [List.mem_singleton, forall_eq]; exact fun n k i j hn => if_neg (by omega))
  exact ⟨L, _, h1, h2.2 fun n hn k _ i _ j _ => by simp [hn]⟩

example (mr : Bool) : ∃ L : (ℕ → ℕ → ℕ → ℕ → ℝ) → (ℕ → ℕ → ℕ → ℝ) → ℝ, ∃ v,
    (∀ g v, DepTree.logProb mr { Dependency.sample with get := g } (some [3, 2]) 1 v = .ok (L g v)) ∧ IsBest L [v] Dependency.sample.get := by
  obtain ⟨μ, -, h⟩ := dependency_best mr Dependency.sample _ (Dependency.sample_valid mr)
  obtain ⟨L, h1, h2⟩ := h 1 (by decide) [fun i j _ => μ [1, i, j]]
  exact ⟨L, _, h1, h2.2 fun i _ j _ => by simp⟩

example (mr : Bool) : ∃ L : (ℕ → ℕ → ℕ → ℕ → ℝ) → (ℕ → ℕ → ℕ → ℝ) → ℝ, ∃ v,
    (∀ g v, DepTree.logProb mr { LabelledDependency.sample with get := g } (some [3, 2]) 1 v = .ok (L g v)) ∧ IsBest L [v] LabelledDependency.sample.get := by
  obtain ⟨μ, -, h⟩ := labelled_best mr LabelledDependency.sample _ (LabelledDependency.sample_valid mr)
  obtain ⟨L, h1, h2⟩ := h 1 (by decide) [fun i j l => μ [1, i, j, l]]
  exact ⟨L, _, h1, h2.2 fun i _ j _ l _ => by simp⟩

end Props.Likelihood
