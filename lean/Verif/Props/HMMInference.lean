import Verif.Props.HMM
import Verif.Props.LinearChainBest
import Verif.Props.LinearChainSample
import Verif.Props.LinearChainEvents
import Verif.Props.LinearChainEntropy

/-! Property theorems about the queries of an `HMM` distribution with lengths: C75.

`HMM(transition, emission, init, observations, lengths)` is `LinearChainCRF` over the potentials of `hmm`. For every row with at least two
observations the queries answer about the hidden Markov model: log-likelihood, posteriors, most probable state sequence. A row with one
observation has no edge, its initial and emission scores sit on edge 0 and are lost: the claim is false there (`short_row_false`), hence the
suffix of the other theorems. -/

open Finset Spec LinearChainProofs Sampling

noncomputable section
namespace Props.HMM
open _root_.LinearChain Props.LinearChain

/-- The tables, restricted to `C` states and `V` symbols. -/
abbrev trOf (C : ℕ) (tr : ℕ → ℕ → ℝ) : Fin C → Fin C → ℝ := fun i j => tr i j
abbrev emOf (V C : ℕ) (em : ℕ → ℕ → ℝ) : Fin V → Fin C → ℝ := fun v c => em v c
abbrev iniOf (C : ℕ) (ini : ℕ → ℝ) : Fin C → ℝ := fun c => ini c

variable {V C : ℕ} {tr em : ℕ → ℕ → ℝ} {ini : ℕ → ℝ} {x : T2 ℕ} {p : T4 ℝ} {lengths : Option (List ℕ)}

theorem hmm_dims (hN : 2 ≤ x.d1) (hx : Symbols x V) (hp : hmm V C tr em ini x = .ok p) :
    p.d0 = x.d0 ∧ p.d1 + 1 = x.d1 ∧ p.d2 = C ∧ p.d3 = C ∧
      ∀ b n i j, n < x.d1 - 1 → p.get b n i j = tr i j + (if n = 0 then ini j else 0) + em (x.get b (n + 1)) i +
        (if n = 0 then em (x.get b 0) j else 0) := by
  obtain ⟨p', h1, h2, h3, h4, h5, h6⟩ := hmm_ok V C tr em ini x hN hx
  obtain rfl : p' = p := by rw [h1] at hp; exact Except.ok.inj hp
  exact ⟨h2, by omega, h4, h5, h6⟩

theorem hmm_valid (hN : 2 ≤ x.d1) (hx : Symbols x V) (hC : 0 < C) (hlen : ValidLengths x.d0 x.d1 lengths) (hp : hmm V C tr em ini x = .ok p) :
    Valid p lengths := by
  obtain ⟨h2, h3, h4, h5, -⟩ := hmm_dims hN hx hp
  exact ⟨by omega, by omega, by omega, by rw [h2, h3]; exact hlen⟩

theorem prefix_score {D : ℕ} (L : ℕ) (hL : 1 ≤ L) (hLN : L < x.d1) (φ : ℕ → Fin D → Fin D → ℝ) (b : ℕ)
    (h : ∀ n (i j : Fin D), n < x.d1 - 1 → φ n i j = tr i j + (if n = 0 then ini j else 0) + em (x.get b (n + 1)) i +
      (if n = 0 then em (x.get b 0) j else 0)) (x' : Fin (L + 1) → Fin V) (hb : IsObs x b x') (z : Tags L D) :
    seqScore φ z = hmmJoint (trOf D tr) (emOf V D em) (iniOf D ini) x' z := by
  obtain ⟨m, rfl⟩ : ∃ m, L = m + 1 := ⟨L - 1, by omega⟩
  unfold seqScore hmmJoint
  have e : ∀ n : Fin (m + 1), φ n (z n.succ) (z n.castSucc) = tr (z n.succ) (z n.castSucc) + em (x' n.succ) (z n.succ) +
      ((if n = 0 then ini (z 0) else 0) + (if n = 0 then em (x' 0) (z 0) else 0)) := by
    intro n
    rw [h n _ _ (by omega), show x.get b (n + 1) = x' n.succ from hb n.succ, show x.get b 0 = x' 0 from hb 0]
    by_cases hn : n = 0
    · subst hn; simp; ring
    · have : (n : ℕ) ≠ 0 := fun h => hn (Fin.ext h)
      simp [hn, this]
  simp only [e, sum_add_distrib, sum_ite_eq', mem_univ, if_true]
  rw [Fin.sum_univ_succ (fun n : Fin (m + 2) => emOf V D em (x' n) (z n))]
  ring

/-- **C75.** In a row with at least two observations, the score of a state sequence is its joint log-probability with the observations of the row. -/
theorem row_score_partial (hN : 2 ≤ x.d1) (hx : Symbols x V) (hlen : ValidLengths x.d0 x.d1 lengths) (hp : hmm V C tr em ini x = .ok p) (b : ℕ)
    (h2 : 2 ≤ lenOf x.d1 lengths b) (x' : Fin (numEdges p lengths b + 1) → Fin V) (hb : IsObs x b x')
    (z : Tags (numEdges p lengths b) p.d2) :
    seqScore (row p b) z = hmmJoint (trOf _ tr) (emOf V _ em) (iniOf _ ini) x' z := by
  obtain ⟨-, h3, -, -, h6⟩ := hmm_dims hN hx hp
  have hle : lenOf x.d1 lengths b ≤ x.d1 := lenOf_le hlen b
  have hne : numEdges p lengths b = lenOf x.d1 lengths b - 1 := by unfold numEdges; rw [h3]
  exact prefix_score _ (by omega) (by omega) (row p b) b (fun n i j hn => h6 b n i j hn) x' hb z

theorem row_Z_partial (hN : 2 ≤ x.d1) (hx : Symbols x V) (hlen : ValidLengths x.d0 x.d1 lengths) (hp : hmm V C tr em ini x = .ok p) (b : ℕ)
    (h2 : 2 ≤ lenOf x.d1 lengths b) (x' : Fin (numEdges p lengths b + 1) → Fin V) (hb : IsObs x b x') :
    chainZ (numEdges p lengths b) (row p b) = hmmLikelihood (trOf p.d2 tr) (emOf V _ em) (iniOf _ ini) x' :=
  sum_congr rfl fun z _ => by rw [row_score_partial hN hx hlen hp b h2 x' hb z]

theorem row_P_partial (hN : 2 ≤ x.d1) (hx : Symbols x V) (hlen : ValidLengths x.d0 x.d1 lengths) (hp : hmm V C tr em ini x = .ok p) (b : ℕ)
    (h2 : 2 ≤ lenOf x.d1 lengths b) (x' : Fin (numEdges p lengths b + 1) → Fin V) (hb : IsObs x b x')
    (z : Tags (numEdges p lengths b) p.d2) :
    chainP (row p b) z = hmmPosterior (trOf _ tr) (emOf V _ em) (iniOf _ ini) x' z := by
  unfold chainP hmmPosterior
  rw [row_score_partial hN hx hlen hp b h2 x' hb z, row_Z_partial hN hx hlen hp b h2 x' hb]

/-- **C75.** `partition` of an `HMM` is the log-likelihood of the observations of each row with at least two observations, up to the error of
the stand-in for `log 0`. -/
theorem likelihood_partial (hN : 2 ≤ x.d1) (hx : Symbols x V) (hC : 0 < C) (hlen : ValidLengths x.d0 x.d1 lengths) (hp : hmm V C tr em ini x = .ok p)
    (m : ℝ) (hm : LowerBound p lengths m) :
    ∃ vs, Dist.partition algo p lengths = .ok vs ∧ vs.length = x.d0 ∧
      ∀ b (hb : b < vs.length) (x' : Fin (numEdges p lengths b + 1) → Fin V), IsObs x b x' → 2 ≤ lenOf x.d1 lengths b →
        Real.log (hmmLikelihood (trOf p.d2 tr) (emOf V _ em) (iniOf _ ini) x') ≤ vs[b] ∧
        vs[b] ≤ Real.log (hmmLikelihood (trOf p.d2 tr) (emOf V _ em) (iniOf _ ini) x') + err p lengths (-100000) m b := by
  obtain ⟨vs, h1, h2, h3⟩ := partition_bounds p lengths (hmm_valid hN hx hC hlen hp) m hm
  refine ⟨vs, h1, by rw [h2]; exact (hmm_dims hN hx hp).1, fun b hb x' hx' hl => ?_⟩
  rw [← row_Z_partial hN hx hlen hp b hl x' hx']
  exact h3 b hb

/-- **C75.** `marginals` of an `HMM` holds the posterior probabilities of the pairs of consecutive states given the observations. -/
theorem marginals_posterior_partial (hN : 2 ≤ x.d1) (hx : Symbols x V) (hC : 0 < C) (hlen : ValidLengths x.d0 x.d1 lengths)
    (hp : hmm V C tr em ini x = .ok p) (m : ℝ) (hm : LowerBound p lengths m) :
    ∃ μ, Dist.marginals algo p lengths = .ok μ ∧
      ∀ b < x.d0, ∀ x' : Fin (numEdges p lengths b + 1) → Fin V, IsObs x b x' → 2 ≤ lenOf x.d1 lengths b →
        ∀ n < x.d1 - 1, ∀ i j : Fin p.d2,
          |μ [b, n, i, j] - hmmEdgePosterior (trOf _ tr) (emOf V _ em) (iniOf _ ini) x' n i j| ≤ err p lengths (-100000) m b := by
  obtain ⟨μ, h1, h2⟩ := marginals_spec p lengths (hmm_valid hN hx hC hlen hp) m hm
  obtain ⟨d0, d1, -⟩ := hmm_dims hN hx hp
  refine ⟨μ, h1, fun b hb x' hx' hl n hn i j => ?_⟩
  have e : edgeProb (numEdges p lengths b) (row p b) n i j = hmmEdgePosterior (trOf _ tr) (emOf V _ em) (iniOf _ ini) x' n i j :=
    sum_congr rfl fun z _ => by rw [row_P_partial hN hx hlen hp b hl x' hx' z]
  rw [← e]
  exact (h2 b (by omega) n (by omega) i j).2.2

/-- **C75.** `argmax` of an `HMM` is a most probable state sequence given the observations (Viterbi), provided no potential is below the
stand-in for `log 0`. -/
theorem viterbi_partial (hN : 2 ≤ x.d1) (hx : Symbols x V) (hC : 0 < C) (hlen : ValidLengths x.d0 x.d1 lengths) (hp : hmm V C tr em ini x = .ok p)
    (hlow : ∀ b < p.d0, ∀ n < numEdges p lengths b, ∀ i j : Fin p.d2, -100000 < row p b n i j)
    (pick : List (Autograd.Grad (List ℕ)) → Autograd.Grad (List ℕ)) (hpick : Autograd.IsArgmax Prod.fst pick) :
    ∃ μ, Dist.argmax algo p lengths pick = .ok μ ∧
      ∀ b < x.d0, ∀ x' : Fin (numEdges p lengths b + 1) → Fin V, IsObs x b x' → 2 ≤ lenOf x.d1 lengths b →
        ∃ z : Tags (numEdges p lengths b) p.d2,
          (∀ z' : Tags (numEdges p lengths b) p.d2, hmmPosterior (trOf _ tr) (emOf V _ em) (iniOf _ ini) x' z' ≤ hmmPosterior (trOf _ tr) (emOf V _ em) (iniOf _ ini) x' z) ∧
          ∀ n < x.d1 - 1, ∀ i j : Fin p.d2, μ [b, n, i, j] = if UsesEdge z n i j then 1 else 0 := by
  have hv := hmm_valid hN hx hC hlen hp
  obtain ⟨d0, d1, -⟩ := hmm_dims hN hx hp
  obtain ⟨μ, vs, h1, h2, h3, h4⟩ := argmax_spec p lengths hv hlow pick hpick
  obtain ⟨vs', k1, k2, k3⟩ := max_spec p lengths hv fun b hb n hn i j => (hlow b hb n hn i j).le
  obtain rfl : vs' = vs := by rw [k1] at h2; exact Except.ok.inj h2
  refine ⟨μ, h1, fun b hb x' hx' hl => ?_⟩
  obtain ⟨z, g1, g2⟩ := h4 b (by omega)
  refine ⟨z, fun z' => ?_, fun n hn => g2 n (by omega)⟩
  unfold hmmPosterior
  have hZ : 0 ≤ hmmLikelihood (trOf p.d2 tr) (emOf V _ em) (iniOf _ ini) x' := sum_nonneg fun _ _ => (Real.exp_pos _).le
  refine div_le_div_of_nonneg_right (Real.exp_le_exp.2 ?_) hZ
  rw [← row_score_partial hN hx hlen hp b hl x' hx' z', ← row_score_partial hN hx hlen hp b hl x' hx' z, g1]
  exact (k3 b (by omega)).2 z'

/-- **C75.** `log_prob` of the event of a state sequence is the logarithm of its posterior probability given the observations, up to the error
of the stand-in for `log 0`. -/
theorem logProb_posterior_partial (hN : 2 ≤ x.d1) (hx : Symbols x V) (hC : 0 < C) (hlen : ValidLengths x.d0 x.d1 lengths)
    (hpos : ∀ l, lengths = some l → ∀ k ∈ l, 1 ≤ k) (hp : hmm V C tr em ini x = .ok p) (m : ℝ) (hm : LowerBound p lengths m)
    (s : T2 ℕ) (hs0 : s.d0 = x.d0) (hs1 : s.d1 = x.d1) (hs : Classes s p.d2) :
    ∃ e, toParts s p.d2 lengths = .ok e ∧
      ∀ b < x.d0, ∀ x' : Fin (numEdges p lengths b + 1) → Fin V, IsObs x b x' → 2 ≤ lenOf x.d1 lengths b →
        ∀ z : Tags (numEdges p lengths b) p.d2, IsRow s b z → ∃ v, logProb p lengths b (fun n i j => e.get b n i j) = .ok v ∧
          |v - Real.log (hmmPosterior (trOf _ tr) (emOf V _ em) (iniOf _ ini) x' z)| ≤ err p lengths (-100000) m b := by
  have hv := hmm_valid hN hx hC hlen hp
  obtain ⟨d0, d1, d2, -⟩ := hmm_dims hN hx hp
  obtain ⟨vs, e, h1, h2, h3, h4⟩ := logProb_event p lengths hv hpos s (by omega) (by omega) hs
  obtain ⟨vs', k1, k2, k3⟩ := partition_bounds p lengths hv m hm
  obtain rfl : vs' = vs := by rw [k1] at h1; exact Except.ok.inj h1
  refine ⟨e, h3, fun b hb x' hx' hl z hz => ⟨_, h4 b (by omega) z hz, ?_⟩⟩
  have k := k3 b (by omega)
  have : Nonempty (Fin p.d2) := ⟨⟨0, by omega⟩⟩
  have hZ : 0 < chainZ (numEdges p lengths b) (row p b) := sum_pos (fun y _ => Real.exp_pos _) univ_nonempty
  rw [← row_P_partial hN hx hlen hp b hl x' hx' z]
  unfold chainP
  rw [Real.log_div (Real.exp_ne_zero _) hZ.ne', Real.log_exp, abs_le]
  have k' : Real.log (chainZ (numEdges p lengths b) (row p b)) ≤ vs'[b] ∧
    vs'[b] ≤ Real.log (chainZ (numEdges p lengths b) (row p b)) + err p lengths (-100000) m b := k
  have := err_nonneg p lengths (-100000) m b
  constructor <;> linarith [k'.1, k'.2]

/-- **C75.** When every row has at least two observations, `sample` draws the state sequences of the rows independently from their posteriors
given the observations, up to the error of the stand-in for `log 0`. -/
theorem sample_posterior_partial (hN : 2 ≤ x.d1) (hx : Symbols x V) (hC : 0 < C) (hlen : ValidLengths x.d0 x.d1 lengths)
    (hp : hmm V C tr em ini x = .ok p) (m : ℝ) (hm : LowerBound p lengths m)
    (x' : ∀ b : Fin p.d0, Fin (numEdges p lengths b + 1) → Fin V) (hx' : ∀ b : Fin p.d0, IsObs x b (x' b)) (h2 : ∀ b < x.d0, 2 ≤ lenOf x.d1 lengths b) :
    ∃ es, record algo (-100000) p lengths = .ok es ∧ es.length = x.d0 ∧
      MultiSamplesFrom es (fun Z : ∀ b : Fin p.d0, Tags (numEdges p lengths b) p.d2 =>
        ∏ b : Fin p.d0, hmmPosterior (trOf _ tr) (emOf V _ em) (iniOf _ ini) (x' b) (Z b)) batchEvent
        (1 - Real.exp (-∑ b : Fin p.d0, err p lengths (-100000) m b)) := by
  obtain ⟨es, h1, h3, h4⟩ := sample_law p lengths (hmm_valid hN hx hC hlen hp) m hm
  have d0 := (hmm_dims hN hx hp).1
  refine ⟨es, h1, by omega, ?_⟩
  have e : (fun Z : ∀ b : Fin p.d0, Tags (numEdges p lengths b) p.d2 => ∏ b : Fin p.d0, chainP (row p b) (Z b)) =
      fun Z => ∏ b : Fin p.d0, hmmPosterior (trOf _ tr) (emOf V _ em) (iniOf _ ini) (x' b) (Z b) := by
    funext Z
    exact prod_congr rfl fun b _ => row_P_partial hN hx hlen hp b (h2 b (by omega)) (x' b) (hx' b) (Z b)
  rw [← e]
  exact h4

/-- **C75.** `entropy` of an `HMM` is the entropy of the posterior over state sequences, up to the error of the stand-in for `log 0`. -/
theorem entropy_posterior_partial (hN : 2 ≤ x.d1) (hx : Symbols x V) (hC : 0 < C) (hlen : ValidLengths x.d0 x.d1 lengths)
    (hp : hmm V C tr em ini x = .ok p) (B : ℝ) (hB : AbsBound p lengths B) :
    ∃ vs, Dist.entropy algo p lengths = .ok vs ∧ vs.length = x.d0 ∧
      ∀ b (hb : b < vs.length) (x' : Fin (numEdges p lengths b + 1) → Fin V), IsObs x b x' → 2 ≤ lenOf x.d1 lengths b →
        |vs[b] - -∑ z : Tags (numEdges p lengths b) p.d2, hmmPosterior (trOf _ tr) (emOf V _ em) (iniOf _ ini) x' z *
          Real.log (hmmPosterior (trOf _ tr) (emOf V _ em) (iniOf _ ini) x' z)| ≤ errH p lengths (-100000) B b := by
  obtain ⟨vs, h1, h2, h3⟩ := entropy_spec p lengths (hmm_valid hN hx hC hlen hp) B hB
  refine ⟨vs, h1, by rw [h2]; exact (hmm_dims hN hx hp).1, fun b hb x' hx' hl => ?_⟩
  have k := h3 b hb
  unfold chainEntropy at k
  simp only [row_P_partial hN hx hlen hp b hl x' hx'] at k
  exact k

/-- **C75**, the part that fails. With normalised tables and at least two states, the `partition` of a row with one observation exceeds the
log-likelihood of that observation by at least `log C`: it is `log C > 0`, whatever was observed, while a log-likelihood is at most 0. -/
theorem short_row_false (hN : 2 ≤ x.d1) (hx : Symbols x V) (hC : 2 ≤ C) (hlen : ValidLengths x.d0 x.d1 lengths)
    (hp : hmm V C tr em ini x = .ok p) (hnorm : HMMNormalised (trOf C tr) (emOf V C em) (iniOf C ini)) :
    ∃ vs, Dist.partition algo p lengths = .ok vs ∧ vs.length = x.d0 ∧
      ∀ b (hb : b < vs.length), lenOf x.d1 lengths b = 1 → ∀ x' : Fin 1 → Fin V, IsObs x b x' →
        Real.log (hmmLikelihood (trOf C tr) (emOf V C em) (iniOf C ini) x') ≤ 0 ∧ 0 < Real.log C ∧ Real.log C ≤ vs[b] := by
  have hv := hmm_valid hN hx (by omega) hlen hp
  obtain ⟨d0, d1, d2, -⟩ := hmm_dims hN hx hp
  obtain ⟨m, hm⟩ := exists_lowerBound p lengths
  obtain ⟨vs, h1, h2, h3⟩ := partition_bounds p lengths hv m hm
  refine ⟨vs, h1, by omega, fun b hb hl x' hx' => ⟨?_, Real.log_pos (by exact_mod_cast hC), ?_⟩⟩
  · have hJ := joint_normalised V C 0 _ _ _ hnorm
    have hle : hmmLikelihood (trOf C tr) (emOf V C em) (iniOf C ini) x' ≤ 1 := by
      rw [← hJ]
      exact single_le_sum (f := fun x'' : Fin 1 → Fin V => ∑ z : Tags 0 C, Real.exp (hmmJoint (trOf C tr) (emOf V C em) (iniOf C ini) x'' z))
        (fun _ _ => sum_nonneg fun _ _ => (Real.exp_pos _).le) (mem_univ x')
    exact Real.log_nonpos (sum_nonneg fun _ _ => (Real.exp_pos _).le) hle
  · have hne : numEdges p lengths b = 0 := by unfold numEdges; rw [d1]; omega
    have hZ : ∀ (L D : ℕ) (φ : ℕ → Fin D → Fin D → ℝ), L = 0 → ∑ y : Tags L D, Real.exp (seqScore φ y) = D := by
      rintro _ D φ rfl; simp [seqScore, Tags]
    have k : Real.log (∑ y : Tags (numEdges p lengths b) p.d2, Real.exp (seqScore (row p b) y)) ≤ vs[b] := (h3 b hb).1
    rw [hZ _ _ _ hne, d2] at k
    exact k

/-- The model of the examples: two states, two symbols, all equally likely. -/
def half : ℝ := Real.log (1 / 2)

/-- Non-vacuity: a batch of two rows of three observations, the second cut to one observation. The hypotheses hold: the first row meets those of
the partial theorems and the second that of `short_row_false`. -/
example : ∃ p, hmm 2 2 (fun _ _ => half) (fun _ _ => half) (fun _ => half) ⟨2, 3, fun b n => (b + n) % 2⟩ = .ok p ∧
    Symbols ⟨2, 3, fun b n => (b + n) % 2⟩ 2 ∧ ValidLengths 2 3 (some [3, 1]) ∧ lenOf 3 (some [3, 1]) 0 = 3 ∧ lenOf 3 (some [3, 1]) 1 = 1 ∧
    HMMNormalised (trOf 2 fun _ _ => half) (emOf 2 2 fun _ _ => half) (iniOf 2 fun _ => half) ∧
    (∀ b < p.d0, ∀ n < numEdges p (some [3, 1]) b, ∀ i j : Fin p.d2, -100000 < row p b n i j) ∧
    IsObs (⟨2, 3, fun b n => (b + n) % 2⟩ : T2 ℕ) 0 (![0, 1, 0] : Fin 3 → Fin 2) := by
  have hx : Symbols ⟨2, 3, fun b n => (b + n) % 2⟩ 2 := fun b _ n _ => Nat.mod_lt _ (by norm_num)
  obtain ⟨p, h1, h2, h3, h4, h5, h6⟩ := hmm_ok 2 2 (fun _ _ => half) (fun _ _ => half) (fun _ => half) ⟨2, 3, fun b n => (b + n) % 2⟩
    (by norm_num) hx
  refine ⟨p, h1, hx, ⟨rfl, by simp, by simp⟩, rfl, rfl, ?_, ?_, ?_⟩
  · constructor <;> intros <;> rw [Fin.sum_univ_two] <;> simp only [half] <;> rw [Real.exp_log (by norm_num)] <;> norm_num
  · intro b hb n hn i j
    have hlt : n < 2 := by
      have : lenOf (p.d1 + 1) (some [3, 1]) b ≤ 3 := by
        simp only [h2] at hb
        interval_cases b <;> simp [lenOf]
      unfold numEdges at hn; omega
    have hh : -1 ≤ half := by
      have := Real.one_sub_inv_le_log_of_pos (x := 1 / 2) (by norm_num)
      unfold half; norm_num at this ⊢; linarith
    simp only [row]
    rw [h6 b n i j hlt]
    split_ifs <;> linarith
  · intro n; fin_cases n <;> rfl

end Props.HMM
