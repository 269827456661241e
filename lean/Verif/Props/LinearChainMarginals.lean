import Mathlib.Topology.Algebra.Order.Field
import Mathlib.Analysis.SpecialFunctions.Exp
import Verif.Proofs.LinearChainLog
import Verif.Props.LinearChainValue

/-! Property theorems about `LinearChainCRF.marginals` and `log_prob`: C07, C08, C45. -/

open Finset Spec LinearChainProofs ChainProofs LinearChainLog ChainBounds

noncomputable section
namespace Props.LinearChain
open _root_.LinearChain

/-- How far the stand-in `zero = z` can move the results of row `b`, when no potential is below `m`. -/
def err (p : T4 ℝ) (lengths : Option (List ℕ)) (z m : ℝ) (b : ℕ) : ℝ :=
  numEdges p lengths b * Real.exp (z - m) +
    ((2 ^ Nat.clog 2 p.d1 - numEdges p lengths b : ℕ) : ℝ) * ((2 * p.d2 - 1 : ℕ) * Real.exp z)

theorem err_eq (p : T4 ℝ) (lengths : Option (List ℕ)) (z m : ℝ) (b : ℕ) :
    err p lengths z m b = slack z m (lenOf (p.d1 + 1) lengths b - 1) (2 ^ Nat.clog 2 p.d1 - (lenOf (p.d1 + 1) lengths b - 1)) p.d2 := rfl

/-- The error bound vanishes as the stand-in goes to minus infinity. -/
theorem err_tendsto (p : T4 ℝ) (lengths : Option (List ℕ)) (m : ℝ) (b : ℕ) :
    Filter.Tendsto (fun z => err p lengths z m b) Filter.atBot (nhds 0) := by
  have h1 : Filter.Tendsto (fun z : ℝ => Real.exp (z - m)) Filter.atBot (nhds 0) :=
    Real.tendsto_exp_atBot.comp (Filter.tendsto_atBot_add_const_right _ (-m) Filter.tendsto_id)
  have h2 := Real.tendsto_exp_atBot
  have := (h1.const_mul (numEdges p lengths b : ℝ)).add
    ((h2.const_mul ((2 * p.d2 - 1 : ℕ) : ℝ)).const_mul ((2 ^ Nat.clog 2 p.d1 - numEdges p lengths b : ℕ) : ℝ))
  simpa [err] using this

/-- Marginals computed with a stand-in `z`. -/
theorem marginalsZ (z : ℝ) (p : T4 ℝ) (lengths : Option (List ℕ)) (h : Valid p lengths) (m : ℝ)
    (hm : LowerBound p lengths m) :
    ∃ μ, (algo.run (Autograd.logZ z) (Dist.leaves algo p) lengths).map Dist.gradOfSum = .ok μ ∧
      ∀ b < p.d0, ∀ n < p.d1, ∀ i j : Fin p.d2,
        0 ≤ μ [b, n, i, j] ∧ μ [b, n, i, j] ≤ 1 ∧
        |μ [b, n, i, j] - edgeProb (numEdges p lengths b) (row p b) n i j| ≤ err p lengths z m b := by
  have hok := logpartition_ok (Autograd.logZ z) (Dist.leaves algo p) lengths h.square h.edges h.lens
  refine ⟨_, by rw [show algo.run (Autograd.logZ z) (Dist.leaves algo p) lengths =
    logpartition (Autograd.logZ z) (Dist.leaves algo p) lengths from rfl, hok]; rfl, ?_⟩
  intro b hb n hn i j
  have hlen : ∀ b, lenOf (p.d1 + 1) lengths b ≤ p.d1 + 1 := lenOf_le h.lens
  have hsum : Dist.gradOfSum ((List.range p.d0).map fun b =>
      core (Autograd.logZ z) (C := p.d2) (p.d1 + 1) (Nat.clog 2 p.d1) (lenOf (p.d1 + 1) lengths)
        (leafRow fun b n i j => p.get b n i j) b) [b, n, (i : ℕ), (j : ℕ)] =
      (core (Autograd.logZ z) (C := p.d2) (p.d1 + 1) (Nat.clog 2 p.d1) (lenOf (p.d1 + 1) lengths)
        (leafRow fun b n i j => p.get b n i j) b).2 [b, n, (i : ℕ), (j : ℕ)] := by
    rw [Dist.gradOfSum, List.map_map, apply_list_sum]
    have : ∀ f : ℕ → ℝ, ((List.range p.d0).map f).sum = ∑ b ∈ range p.d0, f b := by
      intro f; rw [← List.sum_toFinset _ List.nodup_range, List.toFinset_range]
    rw [this, sum_eq_single b]
    · rfl
    · intro b' _ hne
      exact row_grad_other h.classes z _ _ b b' (hlen b') hne.symm n i j
    · intro hc; exact absurd (mem_range.2 hb) hc
  rw [err_eq]
  have := row_grad h.classes z m (N := p.d1 + 1) (logN := Nat.clog 2 p.d1) (by simpa using le_two_pow_clog p.d1)
    (lenOf (p.d1 + 1) lengths) (fun b n i j => p.get b n i j) b (hlen b) (fun n hn i j => hm b hb n hn i j) n (by omega) i j
  simp only at this
  rw [← hsum] at this
  exact this

/-- **C07.** `LinearChainCRF.marginals[b, n, i, j]` is in `[0, 1]` and is the posterior probability of the edge, up to the explicit error
of the stand-in `zero = -1e5`.  (`edgeProb` is `0` for positions after the row's length.) -/
theorem marginals_spec (p : T4 ℝ) (lengths : Option (List ℕ)) (h : Valid p lengths) (m : ℝ)
    (hm : LowerBound p lengths m) :
    ∃ μ, Dist.marginals algo p lengths = .ok μ ∧
      ∀ b < p.d0, ∀ n < p.d1, ∀ i j : Fin p.d2,
        0 ≤ μ [b, n, i, j] ∧ μ [b, n, i, j] ≤ 1 ∧
        |μ [b, n, i, j] - edgeProb (numEdges p lengths b) (row p b) n i j| ≤ err p lengths (-100000) m b :=
  marginalsZ Semirings.negInf p lengths h m hm

/-- **C07** (limit form). As the stand-in for `log 0` goes to minus infinity, the marginals converge to the posterior probabilities. -/
theorem marginals_limit (p : T4 ℝ) (lengths : Option (List ℕ)) (h : Valid p lengths) :
    ∃ μ : ℝ → List ℕ → ℝ,
      (∀ z, (algo.run (Autograd.logZ z) (Dist.leaves algo p) lengths).map Dist.gradOfSum = .ok (μ z)) ∧
      ∀ b < p.d0, ∀ n < p.d1, ∀ i j : Fin p.d2,
        Filter.Tendsto (fun z => μ z [b, n, i, j]) Filter.atBot
          (nhds (edgeProb (numEdges p lengths b) (row p b) n i j)) := by
  obtain ⟨m, hm⟩ := exists_lowerBound p lengths
  choose μ h1 h2 using fun z => marginalsZ z p lengths h m hm
  refine ⟨μ, h1, fun b hb n hn i j => ?_⟩
  rw [tendsto_iff_norm_sub_tendsto_zero]
  refine squeeze_zero (fun z => norm_nonneg _) (fun z => ?_) (err_tendsto p lengths m b)
  exact (h2 z b hb n hn i j).2.2

theorem sum_chainP {L C : ℕ} (hC : 0 < C) (φ : ℕ → Fin C → Fin C → ℝ) : ∑ y : Tags L C, chainP φ y = 1 := by
  simp only [chainP, ← sum_div]
  exact div_self (chainZ_pos hC φ L).ne'

/-- **C07**: the posterior edge probabilities sum to one at every position before the length. -/
theorem edgeProb_sum {L C : ℕ} (hC : 0 < C) (φ : ℕ → Fin C → Fin C → ℝ) (n : ℕ) (hn : n < L) :
    ∑ i, ∑ j, edgeProb L φ n i j = 1 := by
  rw [← sum_chainP (L := L) hC φ]
  simp only [edgeProb]
  rw [sum_congr rfl fun i _ => sum_comm, sum_comm]
  refine sum_congr rfl fun y _ => ?_
  rw [sum_eq_single (y ⟨n + 1, by omega⟩), sum_eq_single (y ⟨n, by omega⟩)]
  · exact if_pos ⟨hn, rfl, rfl⟩
  · intro j _ hj; exact if_neg fun ⟨_, _, h⟩ => hj h.symm
  · simp
  · intro i _ hi; exact sum_eq_zero fun j _ => if_neg fun ⟨_, h, _⟩ => hi h.symm
  · simp

/-- **C07**: adjacent positions agree on the tag marginals. -/
theorem edgeProb_consistent {L C : ℕ} (φ : ℕ → Fin C → Fin C → ℝ) (n : ℕ) (hn : n + 1 < L) (c : Fin C) :
    ∑ j, edgeProb L φ n c j = ∑ i, edgeProb L φ (n + 1) i c := by
  simp only [edgeProb]
  rw [sum_comm]
  conv_rhs => rw [sum_comm]
  refine sum_congr rfl fun y _ => ?_
  rw [sum_eq_single (y ⟨n, by omega⟩), sum_eq_single (y ⟨n + 1 + 1, by omega⟩)]
  · by_cases h : y ⟨n + 1, by omega⟩ = c
    · rw [if_pos ⟨by omega, h, rfl⟩, if_pos ⟨hn, rfl, h⟩]
    · rw [if_neg fun ⟨_, h', _⟩ => h h', if_neg fun ⟨_, _, h'⟩ => h h']
  · intro i _ hi; exact if_neg fun ⟨_, h, _⟩ => hi h.symm
  · simp
  · intro j _ hj; exact if_neg fun ⟨_, _, h⟩ => hj h.symm
  · simp

theorem edgeProb_past {L C : ℕ} (φ : ℕ → Fin C → Fin C → ℝ) (n : ℕ) (hn : L ≤ n) (i j : Fin C) : edgeProb L φ n i j = 0 :=
  sum_eq_zero fun _ _ => if_neg fun ⟨h, _⟩ => absurd h (by omega)

/-- **C07**: consequently the computed marginals of a position before the length sum to 1, up to `C²` times the error bound. -/
theorem marginals_sum (p : T4 ℝ) (lengths : Option (List ℕ)) (h : Valid p lengths) (m : ℝ)
    (hm : LowerBound p lengths m) :
    ∃ μ, Dist.marginals algo p lengths = .ok μ ∧
      ∀ b < p.d0, ∀ n < numEdges p lengths b,
        |∑ i : Fin p.d2, ∑ j : Fin p.d2, μ [b, n, i, j] - 1| ≤ p.d2 * (p.d2 * err p lengths (-100000) m b) := by
  obtain ⟨μ, h1, h2⟩ := marginals_spec p lengths h m hm
  refine ⟨μ, h1, fun b hb n hn => ?_⟩
  have hlen := lenOf_le h.lens b
  have hn' : n < p.d1 := by simp only [numEdges] at hn; omega
  rw [← edgeProb_sum h.classes (row p b) n hn, ← sum_sub_distrib]
  simp only [← sum_sub_distrib]
  refine (abs_sum_le_sum_abs _ _).trans ?_
  refine (sum_le_card_nsmul _ _ (p.d2 * err p lengths (-100000) m b) fun i _ => ?_).trans_eq (by simp)
  refine (abs_sum_le_sum_abs _ _).trans ?_
  refine (sum_le_card_nsmul _ _ (err p lengths (-100000) m b) fun j _ => ?_).trans_eq (by simp)
  exact (h2 b hb n hn' i j).2.2

/-- The concrete rows of lengths 3 and 2 meet the hypotheses, with the lower bound `-1`. -/
example : ∃ μ, Dist.marginals algo sample (some [3, 2]) = .ok μ ∧ ∀ b < 2, ∀ n < numEdges sample (some [3, 2]) b,
    |∑ i : Fin 2, ∑ j : Fin 2, μ [b, n, i, j] - 1| ≤ (2 : ℕ) * ((2 : ℕ) * err sample (some [3, 2]) (-100000) (-1) b) :=
  marginals_sum sample (some [3, 2]) sample_valid (-1) fun b _ n _ i j => by
    have hj : ((j : ℕ) : ℝ) ≤ 1 := by exact_mod_cast Nat.le_of_lt_succ j.2
    have : (0 : ℝ) ≤ b := Nat.cast_nonneg _
    have : (0 : ℝ) ≤ n := Nat.cast_nonneg _
    have : (0 : ℝ) ≤ (i : ℕ) := Nat.cast_nonneg _
    simp only [row, sample]
    linarith

end Props.LinearChain
