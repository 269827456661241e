import Verif.Proofs.ChainBackward
import Verif.Props.TreeInfinity

/-! C115: `LinearChainCRF.marginals` with potentials `-inf`.

Forbidden transitions have potential `-inf` (`Props.Conditional.forbid4`).  Unlike in trees (C113) the backward pass of torch never gives NaN: line 79 of
linearchain.py adds `exp(-1e5)` to every entry, so that no entry of the chart is `-inf`. -/

open Finset Spec ChainBackwardProofs LinearChainProofs ChainProofs
open TreeBackwardProofs (LogOf)
open Props.Conditional (forbid4 TagsAvoid tagsAvoid_iff)
open Props.TreeInfinity (weight weight_nonneg weight_eq_zero weight_log)

noncomputable section
namespace Props.ChainInfinity
open Props.LinearChain (Valid numEdges row)

variable {p : T4 ℝ} {lengths : Option (List ℕ)} {F : ℕ → ℕ → ℕ → ℕ → Prop}

open Classical in
/-- The total weight of the sequences of row `b` without forbidden transitions. -/
def allowed (p : T4 ℝ) (lengths : Option (List ℕ)) (F : ℕ → ℕ → ℕ → ℕ → Prop) (b : ℕ) : ℝ :=
  ∑ y : Tags (numEdges p lengths b) p.d2, if TagsAvoid (F b) y then Real.exp (seqScore (row p b) y) else 0

/-- How far the stand-in `z` for `log 0` can move the results of row `b` when the potentials that are not `-inf` are between `-B` and `B`. -/
def err (p : T4 ℝ) (lengths : Option (List ℕ)) (z B : ℝ) (b : ℕ) : ℝ :=
  let L := numEdges p lengths b
  ((2 ^ Nat.clog 2 p.d1 - L : ℕ) : ℝ) * ((2 * p.d2 - 1 : ℕ) * Real.exp z) + L * Real.exp (z + B) +
    (p.d2 : ℝ) ^ (L + 1) * (Real.exp B + Real.exp z) ^ (L - 1) * Real.exp (z + B * L)

/-- The potentials that belong to row `b` and are not forbidden are between `-B` and `B`. -/
def Within (p : T4 ℝ) (lengths : Option (List ℕ)) (F : ℕ → ℕ → ℕ → ℕ → Prop) (B : ℝ) (b : ℕ) : Prop :=
  ∀ n < numEdges p lengths b, ∀ i j : Fin p.d2, ¬ F b n i j → |row p b n i j| ≤ B

theorem seq_weight (b : ℕ) {m : ℕ} (y : Tags m p.d2) [Decidable (TagsAvoid (F b) y)] :
    seqProd (fun n (i j : Fin p.d2) => weight p F b n i j) y = if TagsAvoid (F b) y then Real.exp (seqScore (row p b) y) else 0 := by
  split_ifs with h
  · rw [seqScore, Real.exp_sum, seqProd]
    refine prod_congr rfl fun n _ => ?_
    rw [weight, if_neg ((tagsAvoid_iff _ _).1 h n)]
    rfl
  · rw [tagsAvoid_iff] at h
    push Not at h
    obtain ⟨n, hn⟩ := h
    exact prod_eq_zero (mem_univ n) (weight_eq_zero.2 hn)

theorem allowed_eq (b : ℕ) : chainSum (numEdges p lengths b) (fun n (i j : Fin p.d2) => weight p F b n i j) = allowed p lengths F b := by
  classical
  rw [chainSum, allowed]
  refine sum_congr rfl fun y _ => ?_
  rw [seq_weight]

theorem allowed_pos {b : ℕ} (h : ∃ y : Tags (numEdges p lengths b) p.d2, TagsAvoid (F b) y) : 0 < allowed p lengths F b := by
  classical
  obtain ⟨y, hy⟩ := h
  refine lt_of_lt_of_le (Real.exp_pos (seqScore (row p b) y)) ?_
  have := single_le_sum (f := fun y : Tags (numEdges p lengths b) p.d2 => if TagsAvoid (F b) y then Real.exp (seqScore (row p b) y) else 0)
    (fun y _ => by split_ifs <;> positivity) (mem_univ y)
  rw [if_pos hy] at this
  rw [allowed]
  convert this

theorem share (hC : 0 < p.d2) (b n : ℕ) (i j : Fin p.d2) :
    (∑ y : Tags (numEdges p lengths b) p.d2, if UsesEdge y n i j then seqProd (fun n (i j : Fin p.d2) => weight p F b n i j) y else 0) / allowed p lengths F b =
      Gibbs.condProb (seqScore (row p b) : Tags (numEdges p lengths b) p.d2 → ℝ) (TagsAvoid (F b)) (fun y => UsesEdge y n i j) := by
  classical
  have : Nonempty (Fin p.d2) := ⟨⟨0, hC⟩⟩
  have hZ := Gibbs.Z_pos (seqScore (row p b) : Tags (numEdges p lengths b) p.d2 → ℝ)
  rw [allowed, Gibbs.condProb, Gibbs.probOf, Gibbs.probOf, ← mul_div_mul_right _ _ (inv_ne_zero hZ.ne'), sum_mul, sum_mul]
  congr 1
  · refine sum_congr rfl fun y _ => ?_
    rw [seq_weight, Gibbs.prob]
    by_cases h1 : TagsAvoid (F b) y <;> by_cases h2 : UsesEdge y n i j <;> simp [h1, h2, div_eq_mul_inv]
  · refine sum_congr rfl fun y _ => ?_
    rw [Gibbs.prob]
    by_cases h1 : TagsAvoid (F b) y <;> simp [h1, div_eq_mul_inv]

theorem lens_getD (h : Valid p lengths) {b : ℕ} (hb : b < p.d0) :
    ∃ lens, LinearChain.checkPotentials (forbid4 p F) lengths = .ok lens ∧ lens.getD b 0 = lenOf (p.d1 + 1) lengths b := by
  cases lengths with
  | none =>
    refine ⟨List.replicate p.d0 (p.d1 + 1), ?_, ?_⟩
    · simp [_root_.LinearChain.checkPotentials, forbid4, h.square, bind, Except.bind]
    · rw [List.getD_eq_getElem _ _ (by simpa using hb)]
      simp [lenOf]
  | some l =>
    obtain ⟨h1, h2, h3⟩ := h.lens
    have hm : l.max? = some (p.d1 + 1) := by rw [List.max?_eq_some_iff]; exact ⟨h3, h2⟩
    refine ⟨l, ?_, rfl⟩
    simp [_root_.LinearChain.checkPotentials, forbid4, h.square, bind, Except.bind, hm]

/-- The results in terms of weights. -/
theorem entries {σ : Slope} (hσ : Shares σ) (z : ℝ) (h : Valid p lengths) (F : ℕ → ℕ → ℕ → ℕ → Prop) :
    ∃ vs μ, LinearChain.logpartition (Semirings.logE (z : EReal)) (forbid4 p F) lengths = .ok vs ∧
      ChainBackward.marginals σ z (forbid4 p F) lengths = .ok μ ∧ ∀ b < p.d0,
      let w : ℕ → Fin p.d2 → Fin p.d2 → ℝ := fun n i j => weight p F b n i j
      let L := numEdges p lengths b
      let M := 2 ^ Nat.clog 2 p.d1
      let W : ℕ → Fin p.d2 → Fin p.d2 → ℝ := fun n i j => LinearChainLog.cw z L n i j + lw z w L n i j
      vs[b]? = some ((Real.log (chainSum M W) : ℝ) : EReal) ∧ ∀ n < p.d1, ∀ i j : Fin p.d2, μ [b, n, (i : ℕ), (j : ℕ)] =
        IEEE.ofReal (chainSum M (ChainBounds.only W n i j (lw z w L n i j)) / chainSum M W) := by
  have hl : ValidLengths (forbid4 p F).d0 ((forbid4 p F).d1 + 1) lengths := h.lens
  have hok := logpartition_ok (Semirings.logE (z : EReal)) (forbid4 p F) lengths h.square h.edges hl
  obtain ⟨vs, k1, k2, k3⟩ := logpartition_plain (logOf_rel z) (SemiringRel.logE_plain (z : EReal)) (forbid4 p F) lengths h.square h.edges h.classes hl
    (ζ := Real.exp z) (logOf_exp z) (by simpa [ChainBackward.sr, Semirings.logE] using logOf_exp 0) (fun b n i j => weight p F b n i j)
    (fun b _ n _ i j => weight_log b n i j)
  have k1' : LinearChain.logpartition (ChainBackward.sr z) (forbid4 p F) lengths = .ok vs := k1
  have hd1 : (forbid4 p F).d1 ≠ 0 := h.edges.ne'
  obtain ⟨lens, l1, -⟩ : ∃ lens, LinearChain.checkPotentials (forbid4 p F) lengths = .ok lens ∧ True := by
    cases hc : LinearChain.checkPotentials (forbid4 p F) lengths with
    | ok l => exact ⟨l, rfl, trivial⟩
    | error e => rw [LinearChain.logpartition, hc] at hok; simp [bind, Except.bind] at hok
  have hmarg : ChainBackward.marginals σ z (forbid4 p F) lengths = .ok fun e =>
      if h : e.getD 2 0 < (forbid4 p F).d2 ∧ e.getD 3 0 < (forbid4 p F).d2 then
        ChainBackward.rowBack σ (ChainBackward.sr z) (C := (forbid4 p F).d2) ((forbid4 p F).d1 + 1) (Nat.clog 2 (forbid4 p F).d1) (fun b => lens.getD b 0)
          (fun b n i j => (forbid4 p F).get b n i j) (e.getD 0 0) (e.getD 1 0) ⟨_, h.1⟩ ⟨_, h.2⟩
      else .ofReal 0 := by
    rw [ChainBackward.marginals, k1', l1]
    simp only [Struct.binLength, hd1, if_false, bind, Except.bind]
  refine ⟨vs, _, k1, hmarg, fun b hb => ?_⟩
  intro w L M W
  have hlen := lenOf_le h.lens b
  have hLM : L ≤ M := by
    have := le_two_pow_clog p.d1
    simp only [L, M, numEdges]
    omega
  have hw : ∀ n i j, 0 ≤ w n i j := fun n i j => weight_nonneg b n i j
  constructor
  · have hlenvs : vs.length = p.d0 := k2
    have hb' : b < vs.length := by omega
    have := k3 b hb'
    rw [List.getElem?_eq_getElem hb']
    congr 1
    have e : (1 + ((2 * (forbid4 p F).d2 - 1 : ℕ) : ℝ) * Real.exp z) ^ (2 ^ Nat.clog 2 (forbid4 p F).d1 - (lenOf ((forbid4 p F).d1 + 1) lengths b - 1)) *
        chainSum (lenOf ((forbid4 p F).d1 + 1) lengths b - 1) (fun n (i j : Fin (forbid4 p F).d2) => weight p F b n i j + Real.exp z) = chainSum M W :=
      (total_w h.classes z hLM).symm
    rw [e] at this
    have hp : 0 < chainSum M W := total_pos h.classes hw z
    obtain ⟨x, hx⟩ : ∃ x : ℝ, vs[b] = (x : EReal) := by
      have t1 : vs[b] ≠ ⊤ := fun hc => by
        have := this.2
        rw [hc, EReal.exp_top] at this
        exact ENNReal.ofReal_ne_top this.symm
      have t2 : vs[b] ≠ ⊥ := fun hc => by
        have := this.2
        rw [hc, EReal.exp_bot] at this
        exact absurd (ENNReal.ofReal_eq_zero.1 this.symm) (not_le.2 hp)
      exact ⟨vs[b].toReal, (EReal.coe_toReal t1 t2).symm⟩
    rw [hx] at this ⊢
    have h2 := this.2
    rw [EReal.exp_coe, ENNReal.ofReal_eq_ofReal_iff (Real.exp_pos x).le hp.le] at h2
    rw [← h2, Real.log_exp]
  · intro n hn i j
    obtain ⟨lens', m1, m2⟩ := lens_getD (F := F) h hb
    obtain rfl : lens = lens' := Except.ok.inj (l1.symm.trans m1)
    have hcond : ([b, n, (i : ℕ), (j : ℕ)].getD 2 0 < (forbid4 p F).d2 ∧ [b, n, (i : ℕ), (j : ℕ)].getD 3 0 < (forbid4 p F).d2) := ⟨i.2, j.2⟩
    rw [dif_pos hcond]
    have := rowBack_eq hσ z (C := p.d2) h.classes (N := p.d1 + 1) (logN := Nat.clog 2 p.d1) (by simpa using le_two_pow_clog p.d1)
      (lens := fun b => lens.getD b 0) (lp := fun b n i j => (forbid4 p F).get b n i j) (b := b) (by simp only [m2]; exact hlen) (w := w)
      (fun n i j => weight_log b n i j) n (by simpa using hn) i j
    simp only [m2] at this
    exact this

/-- What `partition` and `marginals` give, for either form of the backward formula of `logsumexp` and any stand-in `z`. -/
theorem specZ {σ : Slope} (hσ : Shares σ) (z : ℝ) (h : Valid p lengths) (F : ℕ → ℕ → ℕ → ℕ → Prop) :
    ∃ vs μ, LinearChain.logpartition (Semirings.logE (z : EReal)) (forbid4 p F) lengths = .ok vs ∧
      ChainBackward.marginals σ z (forbid4 p F) lengths = .ok μ ∧ ∀ b < p.d0, ∃ v : ℝ, vs[b]? = some (v : EReal) ∧
      ∀ n < p.d1, ∀ i j : Fin p.d2, ∃ q : ℝ, μ [b, n, (i : ℕ), (j : ℕ)] = IEEE.ofReal q ∧ 0 ≤ q ∧ q ≤ 1 ∧ (n < numEdges p lengths b → F b n i j → q = 0) ∧
        ((∃ y : Tags (numEdges p lengths b) p.d2, TagsAvoid (F b) y) →
          |q - Gibbs.condProb (seqScore (row p b) : Tags (numEdges p lengths b) p.d2 → ℝ) (TagsAvoid (F b)) (fun y => UsesEdge y n i j)| ≤
            v - Real.log (allowed p lengths F b) ∧
          ∀ B, Within p lengths F B b → v - Real.log (allowed p lengths F b) ≤ err p lengths z B b) := by
  obtain ⟨vs, μ, h1, h2, h3⟩ := entries hσ z h F
  refine ⟨vs, μ, h1, h2, fun b hb => ?_⟩
  obtain ⟨h4, h5⟩ := h3 b hb
  have hlen := lenOf_le h.lens b
  have hclog := le_two_pow_clog p.d1
  have hLM : numEdges p lengths b ≤ 2 ^ Nat.clog 2 p.d1 := by simp only [numEdges]; omega
  have hw : ∀ n (i j : Fin p.d2), 0 ≤ weight p F b n i j := fun n i j => weight_nonneg b n i j
  refine ⟨_, h4, fun n hn i j => ⟨_, h5 n hn i j, (share_mem h.classes hw z n i j).1, (share_mem h.classes hw z n i j).2, ?_, fun hA => ?_⟩⟩
  · intro hn' hF
    have : lw z (fun n (i j : Fin p.d2) => weight p F b n i j) (numEdges p lengths b) n i j = 0 := by
      rw [lw, if_pos hn']; exact weight_eq_zero.2 hF
    rw [this, chainSum_entry _ (by omega), zero_mul, zero_div]
  · have hZ := allowed_pos hA
    rw [← allowed_eq] at hZ ⊢
    refine ⟨?_, fun B hB => ?_⟩
    · have := share_near h.classes hw z hLM hZ n (by omega) i j
      rw [allowed_eq, share h.classes] at this
      rw [allowed_eq]
      exact this
    · refine gap_le h.classes hw z B hLM (fun n hn i j => ?_) hZ
      by_cases hF : F b n i j
      · exact Or.inl (weight_eq_zero.2 hF)
      · right
        have := abs_le.1 (hB n hn i j hF)
        rw [weight, if_neg hF]
        exact ⟨Real.exp_le_exp.2 this.1, Real.exp_le_exp.2 this.2⟩

/-- The two forms that the backward formula of `torch.logsumexp` has had. -/
def Formula (σ : Slope) : Prop := σ = Slope.plain ∨ σ = Slope.guarded

theorem Formula.shares {σ : Slope} (h : Formula σ) : Shares σ := by
  rcases h with rfl | rfl
  exacts [shares_plain, shares_guarded]

/-- **C115.** With potentials `-inf`, `LinearChainCRF.partition` is a finite number and `LinearChainCRF.marginals` has numbers in `[0, 1]` only, never NaN, and 0 at
every forbidden transition of the sentence.  If the row has a sequence without forbidden transitions, the marginals are the probabilities given that nothing
forbidden is used, up to the amount by which `partition` exceeds the log of the total weight of these sequences, and that amount is at most `err`. -/
theorem spec {σ : Slope} (hσ : Formula σ) (p : T4 ℝ) (lengths : Option (List ℕ)) (h : Valid p lengths) (F : ℕ → ℕ → ℕ → ℕ → Prop) :
    ∃ vs μ, Dist.partitionE LinearChain.algo lengths (forbid4 p F) = .ok vs ∧
      ChainBackward.marginals σ (-100000) (forbid4 p F) lengths = .ok μ ∧ ∀ b < p.d0, ∃ v : ℝ, vs[b]? = some (v : EReal) ∧
      ∀ n < p.d1, ∀ i j : Fin p.d2, ∃ q : ℝ, μ [b, n, (i : ℕ), (j : ℕ)] = IEEE.ofReal q ∧ 0 ≤ q ∧ q ≤ 1 ∧ (n < numEdges p lengths b → F b n i j → q = 0) ∧
        ((∃ y : Tags (numEdges p lengths b) p.d2, TagsAvoid (F b) y) →
          |q - Gibbs.condProb (seqScore (row p b) : Tags (numEdges p lengths b) p.d2 → ℝ) (TagsAvoid (F b)) (fun y => UsesEdge y n i j)| ≤
            v - Real.log (allowed p lengths F b) ∧
          ∀ B, Within p lengths F B b → v - Real.log (allowed p lengths F b) ≤ err p lengths (-100000) B b) :=
  specZ hσ.shares (-100000) h F

/-- The error vanishes as the stand-in goes to minus infinity. -/
theorem err_tendsto (p : T4 ℝ) (lengths : Option (List ℕ)) (B : ℝ) (b : ℕ) : Filter.Tendsto (fun z => err p lengths z B b) Filter.atBot (nhds 0) := by
  have h0 := Real.tendsto_exp_atBot
  have h1 : ∀ c : ℝ, Filter.Tendsto (fun z : ℝ => Real.exp (z + c)) Filter.atBot (nhds 0) := fun c =>
    Real.tendsto_exp_atBot.comp (Filter.tendsto_atBot_add_const_right _ c Filter.tendsto_id)
  have h2 := ((h0.const_add (Real.exp B)).pow (numEdges p lengths b - 1)).const_mul ((p.d2 : ℝ) ^ (numEdges p lengths b + 1))
  have := (((h0.const_mul ((2 * p.d2 - 1 : ℕ) : ℝ)).const_mul ((2 ^ Nat.clog 2 p.d1 - numEdges p lengths b : ℕ) : ℝ)).add
    ((h1 B).const_mul (numEdges p lengths b : ℝ))).add (h2.mul (h1 (B * numEdges p lengths b)))
  simpa [err] using this

/-- There is a bound of the potentials. -/
theorem exists_within (p : T4 ℝ) (lengths : Option (List ℕ)) (F : ℕ → ℕ → ℕ → ℕ → Prop) (b : ℕ) : ∃ B, Within p lengths F B b := by
  obtain ⟨B, hB⟩ := (Set.finite_range fun x : Fin (numEdges p lengths b) × Fin p.d2 × Fin p.d2 => |row p b x.1 x.2.1 x.2.2|).bddAbove
  exact ⟨B, fun n hn i j _ => hB ⟨⟨⟨n, hn⟩, i, j⟩, rfl⟩⟩

/-- **C115, limit form.**  As the stand-in for `log 0` goes to minus infinity, the marginals converge to the conditional probabilities. -/
theorem limit {σ : Slope} (hσ : Formula σ) (p : T4 ℝ) (lengths : Option (List ℕ)) (h : Valid p lengths) (F : ℕ → ℕ → ℕ → ℕ → Prop) :
    ∃ μ : ℝ → List ℕ → ℝ, (∀ z, ∃ m, ChainBackward.marginals σ z (forbid4 p F) lengths = .ok m ∧ ∀ b < p.d0, ∀ n < p.d1, ∀ i j : Fin p.d2,
        m [b, n, (i : ℕ), (j : ℕ)] = IEEE.ofReal (μ z [b, n, (i : ℕ), (j : ℕ)])) ∧
      ∀ b < p.d0, (∃ y : Tags (numEdges p lengths b) p.d2, TagsAvoid (F b) y) → ∀ n < p.d1, ∀ i j : Fin p.d2,
        Filter.Tendsto (fun z => μ z [b, n, (i : ℕ), (j : ℕ)]) Filter.atBot
          (nhds (Gibbs.condProb (seqScore (row p b) : Tags (numEdges p lengths b) p.d2 → ℝ) (TagsAvoid (F b)) (fun y => UsesEdge y n i j))) := by
  choose vs m h1 h2 h3 using fun z => specZ hσ.shares z h F
  refine ⟨fun z e => ((m z e).getD 0).toReal, fun z => ⟨m z, h2 z, fun b hb n hn i j => ?_⟩, fun b hb hA n hn i j => ?_⟩
  · obtain ⟨v, _, h4⟩ := h3 z b hb
    obtain ⟨q, hq, _⟩ := h4 n hn i j
    have e : ((m z [b, n, (i : ℕ), (j : ℕ)]).getD 0).toReal = q := by rw [hq]; simp [IEEE.ofReal]
    rw [hq]
    exact congrArg IEEE.ofReal e.symm
  · obtain ⟨B, hB⟩ := exists_within p lengths F b
    rw [tendsto_iff_norm_sub_tendsto_zero]
    refine squeeze_zero (fun z => norm_nonneg _) (fun z => ?_) (err_tendsto p lengths B b)
    obtain ⟨v, _, h4⟩ := h3 z b hb
    obtain ⟨q, hq, _, _, _, h5⟩ := h4 n hn i j
    obtain ⟨h6, h7⟩ := h5 hA
    have e : ((m z [b, n, (i : ℕ), (j : ℕ)]).getD 0).toReal = q := by rw [hq]; simp [IEEE.ofReal]
    beta_reduce
    rw [e]
    exact h6.trans (h7 B hB)

/-- A concrete case: two rows of lengths 3 and 2 over 2 tags, where tag 1 may not follow tag 0.  Both rows have an allowed sequence, and the potentials are
within `[-4, 4]`. -/
def banned : ℕ → ℕ → ℕ → ℕ → Prop := fun _ _ i j => i = 1 ∧ j = 0

theorem banned_ok (b : ℕ) : ∃ y : Tags (numEdges LinearChain.sample (some [3, 2]) b) LinearChain.sample.d2, TagsAvoid (banned b) y :=
  ⟨fun _ => ⟨0, by simp [LinearChain.sample]⟩, (tagsAvoid_iff _ _).2 fun n => by simp [banned]⟩

theorem banned_within (b : ℕ) (hb : b < 2) : Within LinearChain.sample (some [3, 2]) banned 4 b := by
  intro n hn i j _
  have hn1 : n < 2 := by
    have : numEdges LinearChain.sample (some [3, 2]) b ≤ 2 := by
      interval_cases b <;> simp [numEdges, lenOf, LinearChain.sample]
    omega
  have hi : (i : ℕ) < 2 := i.2
  have hj : (j : ℕ) < 2 := j.2
  have hb' : (b : ℝ) ≤ 1 := by exact_mod_cast Nat.le_of_lt_succ hb
  have hn' : (n : ℝ) ≤ 1 := by exact_mod_cast Nat.le_of_lt_succ hn1
  have hi' : ((i : ℕ) : ℝ) ≤ 1 := by exact_mod_cast Nat.le_of_lt_succ hi
  have hj' : ((j : ℕ) : ℝ) ≤ 1 := by exact_mod_cast Nat.le_of_lt_succ hj
  have := (Nat.cast_nonneg b : (0 : ℝ) ≤ b)
  have := (Nat.cast_nonneg n : (0 : ℝ) ≤ n)
  have := (Nat.cast_nonneg (i : ℕ) : (0 : ℝ) ≤ (i : ℕ))
  have := (Nat.cast_nonneg (j : ℕ) : (0 : ℝ) ≤ (j : ℕ))
  simp only [row, LinearChain.sample]
  rw [abs_le]
  constructor <;> linarith

example : ∃ vs μ, Dist.partitionE LinearChain.algo (some [3, 2]) (forbid4 LinearChain.sample banned) = .ok vs ∧
    ChainBackward.marginals Slope.plain (-100000) (forbid4 LinearChain.sample banned) (some [3, 2]) = .ok μ ∧ μ [0, 0, 1, 0] = IEEE.ofReal 0 ∧
    ∃ v : ℝ, vs[1]? = some (v : EReal) ∧ v - Real.log (allowed LinearChain.sample (some [3, 2]) banned 1) ≤ err LinearChain.sample (some [3, 2]) (-100000) 4 1 := by
  obtain ⟨vs, μ, h1, h2, h3⟩ := spec (Or.inl rfl) LinearChain.sample (some [3, 2]) LinearChain.sample_valid banned
  obtain ⟨v, -, h4⟩ := h3 0 (by simp [LinearChain.sample])
  obtain ⟨q, hq, -, -, h5, -⟩ := h4 0 (by simp [LinearChain.sample]) ⟨1, by simp [LinearChain.sample]⟩ ⟨0, by simp [LinearChain.sample]⟩
  obtain ⟨v', hv, h6⟩ := h3 1 (by simp [LinearChain.sample])
  obtain ⟨q', -, -, -, -, h7⟩ := h6 0 (by simp [LinearChain.sample]) ⟨0, by simp [LinearChain.sample]⟩ ⟨0, by simp [LinearChain.sample]⟩
  refine ⟨vs, μ, h1, h2, ?_, v', hv, (h7 (banned_ok 1)).2 4 (banned_within 1 (by omega))⟩
  rw [← h5 (by simp [numEdges, lenOf, LinearChain.sample]) ⟨rfl, rfl⟩]
  exact hq

end Props.ChainInfinity
