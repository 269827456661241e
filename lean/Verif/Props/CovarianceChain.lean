import Verif.Proofs.Covariance
import Verif.Props.GradientChain

/-! Property theorem C71 for `LinearChainCRF` (and `HMM`, which is one): the derivatives of `marginals` are the covariances of the edges. -/

open Finset Spec LinearChainProofs ChainProofs LinearChainLog ChainBounds

noncomputable section
namespace Props.GradientChain
open _root_.LinearChain Props.LinearChain

variable {C : ℕ}

theorem expect_equiv {ι κ : Type} [Fintype ι] [Fintype κ] (e : ι ≃ κ) (s f : κ → ℝ) : Gibbs.expect (fun x => s (e x)) (fun x => f (e x)) = Gibbs.expect s f := by
  unfold Gibbs.expect Gibbs.prob Gibbs.Z
  rw [e.sum_comp (fun y => Real.exp (s y)), e.sum_comp (fun y => Real.exp (s y) / (∑ y, Real.exp (s y)) * f y)]

theorem cov_equiv {ι κ : Type} [Fintype ι] [Fintype κ] (e : ι ≃ κ) (s f g : κ → ℝ) :
    Gibbs.cov (fun x => s (e x)) (fun x => f (e x)) (fun x => g (e x)) = Gibbs.cov s f g := by
  unfold Gibbs.cov
  rw [expect_equiv e s f, expect_equiv e s g, expect_equiv e s fun x => f x * g x]

/-- The score of a tag sequence with some edges replaced by the stand-in. -/
def standScore (L : ℕ) (φ : ℕ → Fin C → Fin C → ℝ) (x : Tags L C × (Fin L → Bool)) : ℝ :=
  ∑ n : Fin L, if x.2 n then φ n (x.1 n.succ) (x.1 n.castSucc) else -100000

/-- Whether the sequence uses the potential of an edge. -/
def standUses (L n : ℕ) (i j : Fin C) (x : Tags L C × (Fin L → Bool)) : ℝ :=
  ∑ m : Fin L, if (m : ℕ) = n ∧ x.2 m = true ∧ x.1 m.succ = i ∧ x.1 m.castSucc = j then 1 else 0

theorem standScore_add (L : ℕ) (φ : ℕ → Fin C → Fin C → ℝ) (n : ℕ) (i j : Fin C) (t : ℝ) (x : Tags L C × (Fin L → Bool)) :
    standScore L (fun n' i' j' => φ n' i' j' + if n' = n ∧ i' = i ∧ j' = j then t else 0) x = standScore L φ x + t * standUses L n i j x := by
  unfold standScore standUses
  rw [mul_sum, ← sum_add_distrib]
  refine sum_congr rfl fun m _ => ?_
  cases hx : x.2 m
  · simp
  · simp

theorem standUses_nonneg (L n : ℕ) (i j : Fin C) (x : Tags L C × (Fin L → Bool)) : 0 ≤ standUses L n i j x :=
  sum_nonneg fun m _ => by split_ifs <;> norm_num

theorem standUses_le (L n : ℕ) (i j : Fin C) (x : Tags L C × (Fin L → Bool)) : standUses L n i j x ≤ 1 := by
  unfold standUses
  by_cases hn : n < L
  · rw [sum_eq_single (⟨n, hn⟩ : Fin L)]
    · split_ifs <;> norm_num
    · intro m _ hm
      rw [if_neg fun hc => hm (Fin.ext hc.1)]
    · simp
  · rw [sum_eq_zero]
    · norm_num
    · intro m _
      rw [if_neg]
      exact fun hc => hn (by rw [← hc.1]; exact m.2)

theorem standUses_true (L n : ℕ) (i j : Fin C) (y : Tags L C) : standUses L n i j (y, fun _ => true) = ind (UsesEdge y n i j) := by
  unfold standUses ind
  by_cases hn : n < L
  · rw [sum_eq_single (⟨n, hn⟩ : Fin L)]
    · by_cases hu : UsesEdge y n i j
      · rw [if_pos hu]
        obtain ⟨_, h1, h2⟩ := hu
        exact if_pos ⟨rfl, rfl, h1, h2⟩
      · rw [if_neg hu]
        exact if_neg fun hc => hu ⟨hn, hc.2.2.1, hc.2.2.2⟩
    · intro m _ hm
      rw [if_neg fun hc => hm (Fin.ext hc.1)]
    · simp
  · rw [sum_eq_zero, if_neg fun hc : UsesEdge y n i j => hn hc.1]
    intro m _
    rw [if_neg]
    exact fun hc => hn (by rw [← hc.1]; exact m.2)

theorem standScore_true (L : ℕ) (φ : ℕ → Fin C → Fin C → ℝ) (y : Tags L C) : standScore L φ (y, fun _ => true) = seqScore φ y := by
  simp [standScore, seqScore]

/-- A sequence with stand-ins is a sequence without, or one with at least one. -/
def standSplit (L C : ℕ) : Tags L C ⊕ (Tags L C × {s : Fin L → Bool // s ≠ fun _ => true}) ≃ Tags L C × (Fin L → Bool) where
  toFun := Sum.elim (fun y => (y, fun _ => true)) fun x => (x.1, x.2.1)
  invFun x := if h : x.2 = fun _ => true then Sum.inl x.1 else Sum.inr (x.1, ⟨x.2, h⟩)
  left_inv x := by
    rcases x with y | ⟨y, s, hs⟩
    · simp
    · simp [hs]
  right_inv x := by
    by_cases h : x.2 = fun _ => true
    · simp [h]; rw [← h]
    · simp [h]

/-- The covariances with and without stand-ins. -/
theorem stand_cov (hC : 0 < C) (L : ℕ) (φ : ℕ → Fin C → Fin C → ℝ) (m : ℝ) (hm : ∀ n < L, ∀ i j, m ≤ φ n i j) (n : ℕ) (i j : Fin C) (n' : ℕ) (i' j' : Fin C) :
    |Gibbs.cov (standScore L φ) (standUses L n i j) (standUses L n' i' j') -
      Gibbs.cov (fun y : Tags L C => seqScore φ y) (fun y => ind (UsesEdge y n i j)) (fun y => ind (UsesEdge y n' i' j'))| ≤
      3 * ((1 + Real.exp (-100000 - m)) ^ L - 1) := by
  have : Nonempty (Fin C) := ⟨⟨0, hC⟩⟩
  have : Nonempty (Tags L C) := inferInstanceAs (Nonempty (Fin (L + 1) → Fin C))
  set ph : Tags L C × {s : Fin L → Bool // s ≠ fun _ => true} → ℝ := fun x => standScore L φ (x.1, x.2.1) with hph
  have e : (fun x => standScore L φ (standSplit L C x)) = Sum.elim (fun y => seqScore φ y) ph := by
    funext x
    rcases x with y | x
    · exact standScore_true L φ y
    · rfl
  have h1 := Gibbs.cov_elim_sub (fun y : Tags L C => seqScore φ y) ph (fun x => standUses L n i j (standSplit L C x)) (fun x => standUses L n' i' j' (standSplit L C x)) (M := 1)
    (fun x => ⟨standUses_nonneg _ _ _ _ _, standUses_le _ _ _ _ _⟩) fun x => ⟨standUses_nonneg _ _ _ _ _, standUses_le _ _ _ _ _⟩
  rw [← e, cov_equiv] at h1
  have e2 : ∀ n i j, (fun y : Tags L C => standUses L n i j (standSplit L C (Sum.inl y))) = fun y => ind (UsesEdge y n i j) :=
    fun n i j => funext fun y => standUses_true L n i j y
  rw [e2, e2] at h1
  refine h1.trans ?_
  rw [one_pow, mul_one]
  refine mul_le_mul_of_nonneg_left ?_ (by norm_num)
  have h2 := Gibbs.Z_elim_eq (fun y : Tags L C => seqScore φ y) ph
  have h3 : Gibbs.Z (Sum.elim (fun y : Tags L C => seqScore φ y) ph) = chainSum L fun n i j => Real.exp (φ n i j) + Real.exp (-100000) := by
    rw [chainSum_gibbs, ← e]
    unfold Gibbs.Z
    rw [(standSplit L C).sum_comp (fun x => Real.exp (standScore L φ x))]
    rfl
  have h4 : (chainSum L fun n i j => Real.exp (φ n i j) + Real.exp (-100000)) ≤ (1 + Real.exp (-100000 - m)) ^ L * Gibbs.Z fun y : Tags L C => seqScore φ y := by
    unfold chainSum seqProd Gibbs.Z
    rw [mul_sum]
    refine sum_le_sum fun y _ => ?_
    rw [show Real.exp (seqScore φ y) = ∏ n : Fin L, Real.exp (φ n (y n.succ) (y n.castSucc)) from Real.exp_sum _ _]
    have : (1 + Real.exp (-100000 - m)) ^ L = ∏ _n : Fin L, (1 + Real.exp (-100000 - m)) := by simp
    rw [this, ← prod_mul_distrib]
    refine prod_le_prod (fun n _ => by positivity) fun n _ => ?_
    rw [add_mul, one_mul, ← Real.exp_add]
    refine add_le_add le_rfl (Real.exp_le_exp.2 ?_)
    have := hm n n.2 (y n.succ) (y n.castSucc)
    linarith
  have hZ := Gibbs.Z_pos fun y : Tags L C => seqScore φ y
  rw [← h3, h2, mul_comm] at h4
  have := le_of_mul_le_mul_right h4 hZ
  linarith

/-- Row `b` of `partition` as a log-normaliser. -/
theorem partition_stand (p : T4 ℝ) (lengths : Option (List ℕ)) (h : Valid p lengths) (b : ℕ) (hb : b < p.d0) :
    rowValue (Dist.partition algo p lengths) b = some (((2 ^ Nat.clog 2 p.d1 - numEdges p lengths b : ℕ) : ℝ) * Real.log (1 + (2 * p.d2 - 1 : ℕ) * Real.exp (-100000)) +
      Real.log (Gibbs.Z (standScore (numEdges p lengths b) (row p b)))) := by
  obtain ⟨vs, h1, h2, h3⟩ := partition_closed_form p lengths h
  have hb' : b < vs.length := by rw [h2]; exact hb
  rw [h1]
  change vs[b]? = _
  rw [List.getElem?_eq_getElem hb', h3 b hb', chainSum_gibbs]
  rfl

theorem nudge_valid {p : T4 ℝ} {lengths : Option (List ℕ)} (h : Valid p lengths) (b n i j : ℕ) (t : ℝ) : Valid (nudge p b n i j t) lengths :=
  ⟨h.square, h.edges, h.classes, h.lens⟩

theorem nudge_stand (p : T4 ℝ) (L b n : ℕ) (i j : Fin p.d2) (t : ℝ) :
    standScore L (row (nudge p b n i j t) b) = fun x : Tags L p.d2 × (Fin L → Bool) => standScore L (row p b) x + t * standUses L n i j x := by
  funext x
  refine Eq.trans ?_ (standScore_add (C := p.d2) L (row p b) n i j t x)
  change standScore (C := p.d2) L (row (nudge p b n i j t) b) x = _
  congr 1
  funext n' i' j'
  change p.get b n' i' j' + (if b = b ∧ n' = n ∧ (i' : ℕ) = i ∧ (j' : ℕ) = j then t else 0) = p.get b n' i' j' + _
  congr 1
  have : (b = b ∧ n' = n ∧ (i' : ℕ) = i ∧ (j' : ℕ) = j) ↔ (n' = n ∧ (i' : Fin p.d2) = i ∧ (j' : Fin p.d2) = j) :=
    ⟨fun ⟨_, h1, h2, h3⟩ => ⟨h1, Fin.ext h2, Fin.ext h3⟩, fun ⟨h1, h2, h3⟩ => ⟨rfl, h1, congrArg Fin.val h2, congrArg Fin.val h3⟩⟩
  by_cases hc : n' = n ∧ (i' : Fin p.d2) = i ∧ (j' : Fin p.d2) = j
  · rw [if_pos (this.2 hc)]; exact (if_pos hc).symm
  · rw [if_neg fun hd => hc (this.1 hd)]; exact (if_neg hc).symm

/-- `marginals` as an expectation. -/
theorem marginals_stand (p : T4 ℝ) (lengths : Option (List ℕ)) (h : Valid p lengths) : ∃ μ, Dist.marginals algo p lengths = .ok μ ∧
    ∀ b < p.d0, ∀ n < numEdges p lengths b, ∀ i j : Fin p.d2, μ [b, n, i, j] =
      Gibbs.expect (standScore (numEdges p lengths b) (row p b)) (standUses (numEdges p lengths b) n i j) := by
  have : Nonempty (Fin p.d2) := ⟨⟨0, h.classes⟩⟩
  obtain ⟨μ, h1, h2⟩ := marginals_deriv p lengths h
  refine ⟨μ, h1, fun b hb n hn i j => ?_⟩
  have h3 := h2 b hb n i j b hb
  rw [if_pos ⟨rfl, hn⟩] at h3
  refine h3.unique ⟨fun t => ((2 ^ Nat.clog 2 p.d1 - numEdges p lengths b : ℕ) : ℝ) * Real.log (1 + (2 * p.d2 - 1 : ℕ) * Real.exp (-100000)) +
    Real.log (Gibbs.Z fun x => standScore (numEdges p lengths b) (row p b) x + t * standUses (numEdges p lengths b) n i j x), fun t => ?_, ?_⟩
  · have := partition_stand (nudge p b n i j t) lengths (nudge_valid h b n i j t) b hb
    beta_reduce
    rw [this, ← nudge_stand]
    rfl
  · have := Gibbs.hasDerivAt_logZ (standScore (numEdges p lengths b) (row p b)) (standUses (numEdges p lengths b) n i j)
    exact this.const_add _

/-- **C71, `LinearChainCRF`, `marginals`.** At the edges of the row, moving the potential of one edge moves the marginal of another by their covariance under the
posterior, up to the error of the stand-in.  The matrix of these derivatives is symmetric, and no marginal falls when its own potential is raised. -/
theorem chain_marginals_cov (p : T4 ℝ) (lengths : Option (List ℕ)) (h : Valid p lengths) (m : ℝ) (hm : LowerBound p lengths m) (b : ℕ) (hb : b < p.d0) :
    ∃ J : ℕ × Fin p.d2 × Fin p.d2 → ℕ × Fin p.d2 × Fin p.d2 → ℝ, (∀ x y, J x y = J y x) ∧ (∀ x, 0 ≤ J x x) ∧
      ∀ n, ∀ i j : Fin p.d2, ∀ n' < numEdges p lengths b, ∀ i' j' : Fin p.d2,
        HasEntryDeriv (fun t => Dist.marginals algo (nudge p b n i j t) lengths) (· [b, n', i', j']) (J (n', i', j') (n, i, j)) ∧
        |J (n', i', j') (n, i, j) - Gibbs.cov (fun y : Tags (numEdges p lengths b) p.d2 => seqScore (row p b) y) (fun y => ind (UsesEdge y n' i' j'))
          (fun y => ind (UsesEdge y n i j))| ≤ 3 * ((1 + Real.exp (-100000 - m)) ^ numEdges p lengths b - 1) := by
  have : Nonempty (Fin p.d2) := ⟨⟨0, h.classes⟩⟩
  refine ⟨fun x y => Gibbs.cov (standScore (numEdges p lengths b) (row p b)) (standUses _ x.1 x.2.1 x.2.2) (standUses _ y.1 y.2.1 y.2.2),
    fun x y => Gibbs.cov_comm _ _ _, fun x => Gibbs.cov_self_nonneg _ _, fun n i j n' hn' i' j' => ⟨?_, ?_⟩⟩
  · refine ⟨_, fun t => ?_, Gibbs.hasDerivAt_expect _ _ _⟩
    obtain ⟨μ, h1, h2⟩ := marginals_stand (nudge p b n i j t) lengths (nudge_valid h b n i j t)
    refine ⟨μ, h1, ?_⟩
    beta_reduce
    rw [h2 b hb n' hn' i' j', ← nudge_stand]
    rfl
  · exact stand_cov h.classes _ _ m (fun n hn i j => hm b hb n hn i j) _ _ _ _ _ _

example : ∃ d, HasEntryDeriv (fun t => Dist.marginals algo (nudge sample 1 0 1 0 t) (some [3, 2])) (· [1, 0, 1, 0]) d ∧ 0 ≤ d := by
  obtain ⟨m, hm⟩ := exists_lowerBound sample (some [3, 2])
  obtain ⟨J, -, h2, h3⟩ := chain_marginals_cov sample _ sample_valid m hm 1 (by decide)
  exact ⟨_, (h3 0 (⟨1, by decide⟩ : Fin 2) (⟨0, by decide⟩ : Fin 2) 0 (by decide) (⟨1, by decide⟩ : Fin 2) (⟨0, by decide⟩ : Fin 2)).1, h2 _⟩

end Props.GradientChain
