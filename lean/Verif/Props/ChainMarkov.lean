import Verif.Proofs.ChainMarkov
import Verif.Props.CovarianceChain
import Verif.Props.LinearChainEvents
import Verif.Props.LinearChainEntropy
import Mathlib.Analysis.SpecialFunctions.Log.NegMulLog

/-! Property theorems about the Markov property of `LinearChainCRF`: C135. -/

open Finset Spec LinearChainProofs ChainProofs LinearChainLog ChainBounds ChainMarkov

noncomputable section
namespace Props.ChainMarkov
open _root_.LinearChain Props.LinearChain Props.GradientChain

variable {C : ℕ}

theorem standUses_eq {L n : ℕ} (hn : n < L) (i j : Fin C) (y : Tags L C) (s : Fin L → Bool) :
    standUses L n i j (y, s) = if UsesEdge y n i j then (if s ⟨n, hn⟩ = true then 1 else 0) else 0 := by
  unfold standUses
  rw [sum_eq_single (⟨n, hn⟩ : Fin L)]
  · by_cases hu : UsesEdge y n i j
    · rw [if_pos hu]
      obtain ⟨_, h1, h2⟩ := hu
      by_cases hs : s ⟨n, hn⟩ = true
      · rw [if_pos hs, if_pos ⟨rfl, hs, h1, h2⟩]
      · rw [if_neg hs, if_neg fun hc => hs hc.2.1]
    · rw [if_neg hu]
      exact if_neg fun hc => hu ⟨hn, hc.2.2.1, hc.2.2.2⟩
  · intro m _ hm
    rw [if_neg fun hc => hm (Fin.ext hc.1)]
  · simp

theorem sum_bools {L : ℕ} (n : Fin L) (a : Fin L → ℝ) (z : ℝ) :
    (∑ s : Fin L → Bool, Real.exp (∑ m, if s m then a m else z) * if s n = true then 1 else 0) =
      (∏ m, (Real.exp (a m) + Real.exp z)) * (Real.exp (a n) / (Real.exp (a n) + Real.exp z)) := by
  have h1 : ∀ s : Fin L → Bool, (Real.exp (∑ m, if s m then a m else z) * if s n = true then (1 : ℝ) else 0) =
      ∏ m, (fun (m : Fin L) (t : Bool) => Real.exp (if t then a m else z) * if m = n ∧ t = false then 0 else 1) m (s m) := by
    intro s
    rw [Real.exp_sum, prod_mul_distrib]
    congr 1
    rw [prod_eq_single n]
    · cases s n <;> simp
    · intro m _ hm
      rw [if_neg fun hc => hm hc.1]
    · simp
  rw [sum_congr rfl fun s _ => h1 s]
  have h2 := Finset.prod_univ_sum (fun _ : Fin L => (univ : Finset Bool)) (fun (m : Fin L) (t : Bool) => Real.exp (if t then a m else z) * if m = n ∧ t = false then 0 else 1)
  rw [Fintype.piFinset_univ] at h2
  rw [← h2]
  have h3 : ∀ m, (∑ t : Bool, Real.exp (if t then a m else z) * if m = n ∧ t = false then (0 : ℝ) else 1) =
      (Real.exp (a m) + Real.exp z) * if m = n then Real.exp (a m) / (Real.exp (a m) + Real.exp z) else 1 := by
    intro m
    have : Real.exp (a m) + Real.exp z ≠ 0 := by positivity
    by_cases hm : m = n
    · subst hm; simp; field_simp
    · simp [hm]
  rw [prod_congr rfl fun m _ => h3 m, prod_mul_distrib, prod_ite_eq' univ n, if_pos (mem_univ n)]

/-- The weights with the stand-in. -/
def standW (φ : ℕ → Fin C → Fin C → ℝ) (n : ℕ) (i j : Fin C) : ℝ := Real.exp (φ n i j) + Real.exp (-100000)

theorem standW_pos (φ : ℕ → Fin C → Fin C → ℝ) (n : ℕ) (i j : Fin C) : 0 < standW φ n i j := by unfold standW; positivity

/-- The computed marginals by forward and backward sums. -/
theorem expect_uses {L n : ℕ} (hn : n < L) (φ : ℕ → Fin C → Fin C → ℝ) (i j : Fin C) : Gibbs.expect (standScore L φ) (standUses L n i j) =
    fwd (standW φ) (fun _ => 1) n j * Real.exp (φ n i j) * back (standW φ) L (n + 1) i / chainSum L (standW φ) := by
  have hZ : Gibbs.Z (standScore L φ) = chainSum L (standW φ) := (chainSum_gibbs L φ (-100000)).symm
  unfold Gibbs.expect Gibbs.prob
  rw [hZ]
  simp only [div_mul_eq_mul_div]
  rw [← sum_div]
  congr 1
  rw [Fintype.sum_prod_type]
  have h1 : ∀ y : Tags L C, (∑ s : Fin L → Bool, Real.exp (standScore L φ (y, s)) * standUses L n i j (y, s)) =
      (if UsesEdge y n i j then seqProd (standW φ) y else 0) * (Real.exp (φ n i j) / standW φ n i j) := by
    intro y
    simp only [standUses_eq hn]
    by_cases hu : UsesEdge y n i j
    · simp only [if_pos hu]
      have := sum_bools (⟨n, hn⟩ : Fin L) (fun m : Fin L => φ m (y m.succ) (y m.castSucc)) (-100000)
      refine this.trans ?_
      obtain ⟨_, h1, h2⟩ := hu
      have e1 : y (⟨n, hn⟩ : Fin L).succ = i := h1
      have e2 : y (⟨n, hn⟩ : Fin L).castSucc = j := h2
      simp only [e1, e2]
      rfl
    · simp [if_neg hu]
  rw [sum_congr rfl fun y _ => h1 y, ← sum_mul, uses_eq (standW φ) hn]
  have := (standW_pos φ n i j).ne'
  field_simp

theorem edgeProb_eq {L n : ℕ} (hn : n < L) (φ : ℕ → Fin C → Fin C → ℝ) (i j : Fin C) : edgeProb L φ n i j =
    fwd (fun n i j => Real.exp (φ n i j)) (fun _ => 1) n j * Real.exp (φ n i j) * back (fun n i j => Real.exp (φ n i j)) L (n + 1) i / chainZ L φ := by
  rw [← uses_eq (fun n i j => Real.exp (φ n i j)) hn, edgeProb, sum_div]
  refine sum_congr rfl fun y _ => ?_
  split_ifs
  · rw [chainP, seqScore, Real.exp_sum]; rfl
  · simp

/-- The posterior probability of a tag at a position before the last one. -/
theorem node_eq {L n : ℕ} (hn : n < L) (φ : ℕ → Fin C → Fin C → ℝ) (c : Fin C) : ∑ i, edgeProb L φ n i c =
    fwd (fun n i j => Real.exp (φ n i j)) (fun _ => 1) n c * back (fun n i j => Real.exp (φ n i j)) L n c / chainZ L φ := by
  simp only [edgeProb_eq hn]
  rw [← sum_div, back_step _ _ _ hn, mul_sum]
  simp only [mul_assoc]

/-- **C135, the Markov property of the distribution.**  The log-probability of a tag sequence is the sum of the logarithms of the posterior probabilities of its edges, minus those of
its tags at the inner positions. -/
theorem chainP_markov (hC : 0 < C) {L : ℕ} (hL : 1 ≤ L) (φ : ℕ → Fin C → Fin C → ℝ) (y : Tags L C) :
    Real.log (chainP φ y) = ∑ n : Fin L, Real.log (edgeProb L φ n (y n.succ) (y n.castSucc)) -
      ∑ n : Fin L, if (n : ℕ) = 0 then 0 else Real.log (∑ i, edgeProb L φ n i (y n.castSucc)) := by
  have hZ := chainZ_pos hC φ L
  have h := log_factor hC hL (w := fun n i j => Real.exp (φ n i j)) (v := fun n i j => Real.exp (φ n i j)) (fun _ _ _ => Real.exp_pos _) (fun _ _ _ => Real.exp_pos _) hZ y
  have e1 : ∀ n : Fin L, edgeProb L φ n (y n.succ) (y n.castSucc) = _ := fun n => edgeProb_eq n.2 φ _ _
  have e2 : ∀ n : Fin L, ∑ i, edgeProb L φ n i (y n.castSucc) = _ := fun n => node_eq n.2 φ _
  simp only [e1, e2]
  rw [h, chainP, Real.log_div (Real.exp_ne_zero _) hZ.ne', Real.log_exp]
  simp only [Real.log_exp]
  rfl

theorem chainP_pos (hC : 0 < C) {L : ℕ} (φ : ℕ → Fin C → Fin C → ℝ) (y : Tags L C) : 0 < chainP φ y := div_pos (Real.exp_pos _) (chainZ_pos hC φ L)

/-- **C135, the marginals determine the distribution.** -/
theorem chainP_determined (hC : 0 < C) {L : ℕ} (hL : 1 ≤ L) (φ ψ : ℕ → Fin C → Fin C → ℝ) (h : ∀ n < L, ∀ i j, edgeProb L φ n i j = edgeProb L ψ n i j)
    (y : Tags L C) : chainP φ y = chainP ψ y := by
  refine Real.log_injOn_pos (chainP_pos hC φ y) (chainP_pos hC ψ y) ?_
  rw [chainP_markov hC hL, chainP_markov hC hL]
  have e : ∀ n : Fin L, ∀ i j, edgeProb L φ n i j = edgeProb L ψ n i j := fun n => h n n.2
  simp only [e]

theorem expect_edge {L : ℕ} (n : Fin L) (φ : ℕ → Fin C → Fin C → ℝ) (f : Fin C → Fin C → ℝ) :
    ∑ y : Tags L C, chainP φ y * f (y n.succ) (y n.castSucc) = ∑ i, ∑ j, edgeProb L φ n i j * f i j := by
  simp only [edgeProb, sum_mul]
  have h1 : ∀ i : Fin C, ∑ j, ∑ y : Tags L C, (if UsesEdge y n i j then chainP φ y else 0) * f i j =
      ∑ y : Tags L C, ∑ j, (if UsesEdge y n i j then chainP φ y else 0) * f i j := fun i => sum_comm
  rw [sum_congr rfl fun i _ => h1 i, sum_comm]
  refine sum_congr rfl fun y _ => ?_
  rw [sum_eq_single (y n.succ), sum_eq_single (y n.castSucc)]
  · rw [if_pos ⟨n.2, rfl, rfl⟩]
  · intro j _ hj
    rw [if_neg fun ⟨_, _, h⟩ => hj h.symm, zero_mul]
  · simp
  · intro i _ hi
    exact sum_eq_zero fun j _ => by rw [if_neg fun ⟨_, h, _⟩ => hi h.symm, zero_mul]
  · simp

/-- **C135, the entropy.**  The entropy is the sum of the entropies of the edges minus those of the tags at the inner positions. -/
theorem chainEntropy_markov (hC : 0 < C) {L : ℕ} (hL : 1 ≤ L) (φ : ℕ → Fin C → Fin C → ℝ) :
    chainEntropy L φ = ∑ n : Fin L, (∑ i, ∑ j, -(edgeProb L φ n i j * Real.log (edgeProb L φ n i j))) -
      ∑ n : Fin L, if (n : ℕ) = 0 then 0 else ∑ c, -((∑ i, edgeProb L φ n i c) * Real.log (∑ i, edgeProb L φ n i c)) := by
  rw [chainEntropy]
  simp only [chainP_markov hC hL, mul_sub, mul_sum]
  rw [sum_sub_distrib, sum_comm]
  have h1 : ∀ n : Fin L, ∑ y : Tags L C, chainP φ y * Real.log (edgeProb L φ n (y n.succ) (y n.castSucc)) = _ :=
    fun n => expect_edge n φ fun i j => Real.log (edgeProb L φ n i j)
  have h2 : ∀ n : Fin L, (∑ y : Tags L C, chainP φ y * if (n : ℕ) = 0 then 0 else Real.log (∑ i, edgeProb L φ n i (y n.castSucc))) =
      if (n : ℕ) = 0 then 0 else ∑ c, (∑ i, edgeProb L φ n i c) * Real.log (∑ i, edgeProb L φ n i c) := by
    intro n
    split_ifs
    · simp
    · refine (expect_edge n φ fun _ c => Real.log (∑ i, edgeProb L φ n i c)).trans ?_
      rw [sum_comm]
      simp only [sum_mul]
  rw [sum_comm (f := fun (y : Tags L C) (n : Fin L) => chainP φ y * if (n : ℕ) = 0 then 0 else Real.log (∑ i, edgeProb L φ n i (y n.castSucc)))]
  rw [sum_congr rfl fun n _ => h1 n, sum_congr rfl fun n _ => h2 n, neg_sub]
  simp only [sum_neg_distrib]
  have h3 : ∀ n : Fin L, (if (n : ℕ) = 0 then 0 else -∑ c, (∑ i, edgeProb L φ n i c) * Real.log (∑ i, edgeProb L φ n i c)) =
      -if (n : ℕ) = 0 then 0 else ∑ c, (∑ i, edgeProb L φ n i c) * Real.log (∑ i, edgeProb L φ n i c) := fun n => by split_ifs <;> simp
  rw [sum_congr rfl fun n _ => h3 n, sum_neg_distrib]
  ring

/-- What the marginals say about a tag sequence: the logarithms of the marginals of its edges, minus those of its tags at the inner positions. -/
def fromMarginals (μ : List ℕ → ℝ) (b : ℕ) {L : ℕ} (y : Tags L C) : ℝ :=
  ∑ n : Fin L, Real.log (μ [b, n, y n.succ, y n.castSucc]) - ∑ n : Fin L, if (n : ℕ) = 0 then 0 else Real.log (∑ i : Fin C, μ [b, n, i, y n.castSucc])

theorem row_markov {L : ℕ} (hC : 0 < C) (hL : 1 ≤ L) (φ : ℕ → Fin C → Fin C → ℝ) (m : ℝ) (hm : ∀ n < L, ∀ i j, m ≤ φ n i j) (μ : List ℕ → ℝ) (b : ℕ)
    (hμ : ∀ n < L, ∀ i j : Fin C, μ [b, n, i, j] = Gibbs.expect (standScore L φ) (standUses L n i j)) (y : Tags L C) :
    0 ≤ fromMarginals μ b y - (seqScore φ y - Real.log (chainSum L (standW φ))) ∧
    fromMarginals μ b y - (seqScore φ y - Real.log (chainSum L (standW φ))) ≤ L * Real.exp (-100000 - m) := by
  have hw := standW_pos φ
  have hZ : 0 < chainSum L (standW φ) := sum_pos (fun y _ => prod_pos fun n _ => hw _ _ _) ⟨fun _ => ⟨0, hC⟩, mem_univ _⟩
  have h := log_factor hC hL (w := standW φ) (v := fun n i j => Real.exp (φ n i j)) hw (fun _ _ _ => Real.exp_pos _) hZ y
  simp only [Real.log_exp] at h
  have e1 : ∀ n : Fin L, μ [b, n, y n.succ, y n.castSucc] = _ := fun n => (hμ n n.2 _ _).trans (expect_uses n.2 φ _ _)
  have e2 : ∀ n : Fin L, ∑ i : Fin C, μ [b, n, i, y n.castSucc] =
      fwd (standW φ) (fun _ => 1) n (y n.castSucc) * (∑ i, Real.exp (φ n i (y n.castSucc)) * back (standW φ) L (n + 1) i) / chainSum L (standW φ) := fun n => by
    rw [sum_congr rfl fun i _ => (hμ n n.2 i _).trans (expect_uses n.2 φ _ _), ← sum_div, mul_sum]
    simp only [mul_assoc]
  have hb := fun k => back_pos hC hw L k
  have key : ∀ n : Fin L, 0 ≤ Real.log (fwd (standW φ) (fun _ => 1) n (y n.castSucc) * back (standW φ) L n (y n.castSucc) / chainSum L (standW φ)) -
      Real.log (∑ i : Fin C, μ [b, n, i, y n.castSucc]) ∧
      Real.log (fwd (standW φ) (fun _ => 1) n (y n.castSucc) * back (standW φ) L n (y n.castSucc) / chainSum L (standW φ)) -
      Real.log (∑ i : Fin C, μ [b, n, i, y n.castSucc]) ≤ Real.exp (-100000 - m) := by
    intro n
    have hf := fwd_pos hC hw n (y n.castSucc)
    set S := ∑ i, Real.exp (φ n i (y n.castSucc)) * back (standW φ) L (n + 1) i with hS
    have hSpos : 0 < S := sum_pos (fun i _ => mul_pos (Real.exp_pos _) (hb _ i)) ⟨⟨0, hC⟩, mem_univ _⟩
    have h1 : S ≤ back (standW φ) L n (y n.castSucc) := by
      rw [back_step _ _ _ n.2]
      exact sum_le_sum fun i _ => mul_le_mul_of_nonneg_right (by unfold standW; linarith [Real.exp_pos (-100000)]) (hb _ i).le
    have h2 : back (standW φ) L n (y n.castSucc) ≤ (1 + Real.exp (-100000 - m)) * S := by
      rw [back_step _ _ _ n.2, hS, mul_sum]
      refine sum_le_sum fun i _ => ?_
      rw [← mul_assoc]
      refine mul_le_mul_of_nonneg_right ?_ (hb _ i).le
      rw [add_mul, one_mul, ← Real.exp_add, standW]
      refine add_le_add le_rfl (Real.exp_le_exp.2 ?_)
      have := hm n n.2 i (y n.castSucc)
      linarith
    rw [e2 n, Real.log_div (mul_pos hf (hb _ _)).ne' hZ.ne', Real.log_div (mul_pos hf hSpos).ne' hZ.ne', Real.log_mul hf.ne' (hb _ _).ne', Real.log_mul hf.ne' hSpos.ne']
    have h3 := Real.log_le_log hSpos h1
    have h4 := Real.log_le_log (hb _ _) h2
    have hpos : 0 < 1 + Real.exp (-100000 - m) := by positivity
    rw [Real.log_mul hpos.ne' hSpos.ne'] at h4
    have h5 := Real.log_le_sub_one_of_pos hpos
    constructor <;> linarith
  have hX : fromMarginals μ b y - (seqScore φ y - Real.log (chainSum L (standW φ))) =
      ∑ n : Fin L, if (n : ℕ) = 0 then 0 else
        Real.log (fwd (standW φ) (fun _ => 1) n (y n.castSucc) * back (standW φ) L n (y n.castSucc) / chainSum L (standW φ)) -
        Real.log (∑ i : Fin C, μ [b, n, i, y n.castSucc]) := by
    have h6 : ∀ n : Fin L, (if (n : ℕ) = 0 then 0 else
        Real.log (fwd (standW φ) (fun _ => 1) n (y n.castSucc) * back (standW φ) L n (y n.castSucc) / chainSum L (standW φ)) -
        Real.log (∑ i : Fin C, μ [b, n, i, y n.castSucc])) =
        (if (n : ℕ) = 0 then 0 else Real.log (fwd (standW φ) (fun _ => 1) n (y n.castSucc) * back (standW φ) L n (y n.castSucc) / chainSum L (standW φ))) -
        (if (n : ℕ) = 0 then 0 else Real.log (∑ i : Fin C, μ [b, n, i, y n.castSucc])) := fun n => by split_ifs <;> simp
    rw [sum_congr rfl fun n _ => h6 n, sum_sub_distrib, fromMarginals]
    simp only [e1]
    have h7 : seqScore φ y = ∑ n : Fin L, φ n (y n.succ) (y n.castSucc) := rfl
    rw [h7]
    linarith
  rw [hX]
  refine ⟨sum_nonneg fun n _ => ?_, ?_⟩
  · split_ifs
    · exact le_rfl
    · exact (key n).1
  · refine (sum_le_card_nsmul _ _ (Real.exp (-100000 - m)) fun n _ => ?_).trans_eq (by simp)
    split_ifs
    · exact (Real.exp_pos _).le
    · exact (key n).2

/-- **C135.**  `log_prob` of a batch of tag sequences can be read off `marginals`: for every row with at least two tags it is the sum of the logarithms of the marginals of the edges of the
sequence minus those of its tags at the inner positions, up to the explicit error of the stand-in `zero = -1e5`. -/
theorem logProb_markov (p : T4 ℝ) (lengths : Option (List ℕ)) (h : Valid p lengths) (m : ℝ) (hm : LowerBound p lengths m)
    (hpos : ∀ l, lengths = some l → ∀ x ∈ l, 1 ≤ x) (s : T2 ℕ) (hs0 : s.d0 = p.d0) (hs1 : s.d1 = p.d1 + 1) (hC : Classes s p.d2) :
    ∃ μ e, Dist.marginals algo p lengths = .ok μ ∧ toParts s p.d2 lengths = .ok e ∧ ∀ b < p.d0, 1 ≤ numEdges p lengths b →
      ∀ y : Tags (numEdges p lengths b) p.d2, IsRow s b y → ∃ v, logProb p lengths b (fun n i j => e.get b n i j) = .ok v ∧
        0 ≤ fromMarginals μ b y - v ∧ fromMarginals μ b y - v ≤ err p lengths (-100000) m b := by
  obtain ⟨μ, h1, h2⟩ := marginals_stand p lengths h
  obtain ⟨vs, e, h3, h4, h5, h6⟩ := logProb_event p lengths h hpos s hs0 hs1 hC
  obtain ⟨vs', h7, h8, h9⟩ := partition_closed_form p lengths h
  rw [h3] at h7
  cases h7
  refine ⟨μ, e, h1, h5, fun b hb hL y hy => ⟨_, h6 b (by rw [h4]; exact hb) y hy, ?_⟩⟩
  obtain ⟨k1, k2⟩ := row_markov h.classes hL (row p b) m (hm b hb) μ b (fun n hn i j => h2 b hb n hn i j) y
  rw [h9 b (by rw [h4]; exact hb)]
  have hq : (1 : ℝ) ≤ 1 + (2 * p.d2 - 1 : ℕ) * Real.exp (-100000) := by
    have : (0 : ℝ) ≤ (2 * p.d2 - 1 : ℕ) * Real.exp (-100000) := by positivity
    linarith
  have hl := Real.log_nonneg hq
  have hl2 := Real.log_le_sub_one_of_pos (lt_of_lt_of_le one_pos hq)
  have hk : (0 : ℝ) ≤ ((2 ^ Nat.clog 2 p.d1 - numEdges p lengths b : ℕ) : ℝ) := Nat.cast_nonneg _
  have hmul := mul_nonneg hk hl
  have hmul2 := mul_le_mul_of_nonneg_left hl2 hk
  have hw : (chainSum (numEdges p lengths b) fun n i j => Real.exp (row p b n i j) + Real.exp (-100000)) = chainSum (numEdges p lengths b) (standW (row p b)) := rfl
  rw [hw, err]
  rw [add_sub_cancel_left] at hmul2
  constructor <;> linarith

/-- **C135.**  Two models with the same marginals give every batch of tag sequences the same `log_prob`, up to the errors of the stand-in. -/
theorem logProb_determined (p q : T4 ℝ) (lengths : Option (List ℕ)) (hp : Valid p lengths) (hq : Valid q lengths) (h0 : q.d0 = p.d0) (h1 : q.d1 = p.d1) (h2 : q.d2 = p.d2)
    (m : ℝ) (hmp : LowerBound p lengths m) (hmq : LowerBound q lengths m) (hpos : ∀ l, lengths = some l → ∀ x ∈ l, 1 ≤ x)
    (hμ : Dist.marginals algo p lengths = Dist.marginals algo q lengths) (s : T2 ℕ) (hs0 : s.d0 = p.d0) (hs1 : s.d1 = p.d1 + 1) (hC : Classes s p.d2) :
    ∃ e, toParts s p.d2 lengths = .ok e ∧ ∀ b < p.d0, 1 ≤ numEdges p lengths b → ∃ v v',
      logProb p lengths b (fun n i j => e.get b n i j) = .ok v ∧ logProb q lengths b (fun n i j => e.get b n i j) = .ok v' ∧ |v - v'| ≤ err p lengths (-100000) m b := by
  obtain ⟨pd0, pd1, pd2, pd3, pg⟩ := p
  obtain ⟨qd0, qd1, qd2, qd3, qg⟩ := q
  cases h0; cases h1; cases h2
  obtain ⟨μ, e, k1, k2, k3⟩ := logProb_markov _ lengths hp m hmp hpos s hs0 hs1 hC
  obtain ⟨μ', e', l1, l2, l3⟩ := logProb_markov _ lengths hq m hmq hpos s hs0 hs1 hC
  rw [k1, l1] at hμ
  cases hμ
  have : e' = e := by
    have := l2.symm.trans k2
    injection this
  subst this
  refine ⟨e', k2, fun b hb hL => ?_⟩
  have hlen := lenOf_le hp.lens b
  simp only at hlen hb hs0 hs1
  have hy : ∃ y : Tags (numEdges (⟨pd0, pd1, pd2, pd3, pg⟩ : T4 ℝ) lengths b) pd2, IsRow s b y := by
    refine ⟨fun n => ⟨s.get b n, hC b (by omega) n ?_⟩, fun n => rfl⟩
    have := n.2
    simp only [numEdges] at this
    omega
  obtain ⟨y, hy⟩ := hy
  obtain ⟨v, a1, a2, a3⟩ := k3 b hb hL y hy
  obtain ⟨v', b1, b2, b3⟩ := l3 b hb hL y hy
  refine ⟨v, v', a1, b1, abs_le.2 ⟨?_, ?_⟩⟩
  · have : err (⟨pd0, pd1, pd2, qd3, qg⟩ : T4 ℝ) lengths (-100000) m b = err (⟨pd0, pd1, pd2, pd3, pg⟩ : T4 ℝ) lengths (-100000) m b := rfl
    change 0 ≤ fromMarginals μ b y - v' at b2
    linarith
  · have : err (⟨pd0, pd1, pd2, qd3, qg⟩ : T4 ℝ) lengths (-100000) m b = err (⟨pd0, pd1, pd2, pd3, pg⟩ : T4 ℝ) lengths (-100000) m b := rfl
    rw [this] at b3
    change fromMarginals μ b y - v' ≤ _ at b3
    linarith

/-- **C135.**  `entropy` can be read off `marginals`: as the stand-in for `log 0` goes to minus infinity, the computed entropy of a row approaches the sum of the entropies of the edges minus those
of the tags at the inner positions, all from the computed marginals. -/
theorem entropy_markov (p : T4 ℝ) (lengths : Option (List ℕ)) (h : Valid p lengths) :
    ∃ (v : ℝ → ℕ → ℝ) (μ : ℝ → List ℕ → ℝ),
      (∀ z, ∃ vs, algo.run (Semirings.entropyZ z) (algo.map Semirings.entropyConvert p) lengths = .ok vs ∧ vs.map Prod.snd = (List.range p.d0).map (v z)) ∧
      (∀ z, (algo.run (Autograd.logZ z) (Dist.leaves algo p) lengths).map Dist.gradOfSum = .ok (μ z)) ∧
      ∀ b < p.d0, 1 ≤ numEdges p lengths b → Filter.Tendsto (fun z => v z b -
        (∑ n : Fin (numEdges p lengths b), (∑ i : Fin p.d2, ∑ j : Fin p.d2, -(μ z [b, n, i, j] * Real.log (μ z [b, n, i, j]))) -
          ∑ n : Fin (numEdges p lengths b), if (n : ℕ) = 0 then 0 else
            ∑ c : Fin p.d2, -((∑ i : Fin p.d2, μ z [b, n, i, c]) * Real.log (∑ i : Fin p.d2, μ z [b, n, i, c])))) Filter.atBot (nhds 0) := by
  obtain ⟨v, h1, h2⟩ := entropy_limit p lengths h
  obtain ⟨μ, h3, h4⟩ := marginals_limit p lengths h
  refine ⟨v, μ, h1, h3, fun b hb hL => ?_⟩
  have hlen := lenOf_le h.lens b
  have hn : ∀ n : Fin (numEdges p lengths b), (n : ℕ) < p.d1 := fun n => by
    have := n.2
    simp only [numEdges] at this
    omega
  have h5 := fun (n : Fin (numEdges p lengths b)) (i j : Fin p.d2) => h4 b hb n (hn n) i j
  have hc := Real.continuous_mul_log
  have h6 := (h2 b hb).sub (Filter.Tendsto.sub
    (tendsto_finsetSum univ fun (n : Fin (numEdges p lengths b)) _ => tendsto_finsetSum univ fun (i : Fin p.d2) _ => tendsto_finsetSum univ fun (j : Fin p.d2) _ =>
      (((hc.tendsto _).comp (h5 n i j)).neg))
    (tendsto_finsetSum univ fun (n : Fin (numEdges p lengths b)) _ =>
      (show Filter.Tendsto (fun z => if (n : ℕ) = 0 then 0 else
            ∑ c : Fin p.d2, -((∑ i : Fin p.d2, μ z [b, n, i, c]) * Real.log (∑ i : Fin p.d2, μ z [b, n, i, c]))) Filter.atBot
          (nhds (if (n : ℕ) = 0 then 0 else ∑ c : Fin p.d2, -((∑ i, edgeProb (numEdges p lengths b) (row p b) n i c) *
            Real.log (∑ i, edgeProb (numEdges p lengths b) (row p b) n i c)))) by
        split_ifs
        · exact tendsto_const_nhds
        · exact tendsto_finsetSum univ fun c _ => (((hc.tendsto _).comp (tendsto_finsetSum univ fun i _ => h5 n i c)).neg))))
  rw [← chainEntropy_markov h.classes hL, sub_self] at h6
  exact h6

/-- The concrete rows of lengths 3 and 2 meet the hypotheses. -/
example : ∃ μ e, Dist.marginals algo sample (some [3, 2]) = .ok μ ∧ toParts ⟨2, 3, fun b n => (b + n) % 2⟩ 2 (some [3, 2]) = .ok e ∧ ∀ b < 2,
    1 ≤ numEdges sample (some [3, 2]) b → ∀ y : Tags (numEdges sample (some [3, 2]) b) 2, IsRow ⟨2, 3, fun b n => (b + n) % 2⟩ b y →
      ∃ v, logProb sample (some [3, 2]) b (fun n i j => e.get b n i j) = .ok v ∧
        0 ≤ fromMarginals μ b y - v ∧ fromMarginals μ b y - v ≤ err sample (some [3, 2]) (-100000) (-1) b :=
  logProb_markov sample (some [3, 2]) sample_valid (-1) (fun b _ n _ i j => by
    have hj : ((j : ℕ) : ℝ) ≤ 1 := by exact_mod_cast Nat.le_of_lt_succ j.2
    have : (0 : ℝ) ≤ b := Nat.cast_nonneg _
    have : (0 : ℝ) ≤ n := Nat.cast_nonneg _
    have : (0 : ℝ) ≤ (i : ℕ) := Nat.cast_nonneg _
    simp only [row, sample]
    linarith) (fun l hl x hx => by cases hl; simp at hx; omega) ⟨2, 3, fun b n => (b + n) % 2⟩ rfl rfl fun b _ n _ => Nat.mod_lt _ (by norm_num [sample])

/-- Both rows have an edge. -/
example : 1 ≤ numEdges sample (some [3, 2]) 0 ∧ 1 ≤ numEdges sample (some [3, 2]) 1 := by decide

end Props.ChainMarkov
