import Mathlib.Analysis.SpecialFunctions.Exp
import Mathlib.Analysis.Convex.SpecificFunctions.Basic
import Verif.Proofs.LinearChainExpect
import Verif.Props.LinearChainMarginals

/-! Property theorems about `LinearChainCRF.entropy`, `cross_entropy` and `kl`: C09, C10. -/

open Finset Spec LinearChainProofs ChainProofs LinearChainLog ChainBounds SemiringRel

noncomputable section
namespace Props.LinearChain
open _root_.LinearChain

/-- `B` bounds the absolute values of the potentials that belong to the rows (padding excluded). -/
structure AbsBound (p : T4 ℝ) (lengths : Option (List ℕ)) (B : ℝ) : Prop where
  nonneg : 0 ≤ B
  bound : ∀ b < p.d0, ∀ n < numEdges p lengths b, ∀ i j : Fin p.d2, |row p b n i j| ≤ B

/-- Every table of potentials has such a bound. -/
theorem exists_absBound (p : T4 ℝ) (lengths : Option (List ℕ)) : ∃ B, AbsBound p lengths B := by
  obtain ⟨m, hm⟩ := (Set.finite_range fun x : Σ b : Fin p.d0, Fin (numEdges p lengths b) × Fin p.d2 × Fin p.d2 =>
    |row p x.1 x.2.1 x.2.2.1 x.2.2.2|).bddAbove
  exact ⟨max m 0, le_max_right _ _, fun b hb n hn i j => (hm ⟨⟨⟨b, hb⟩, ⟨n, hn⟩, i, j⟩, rfl⟩).trans (le_max_left _ _)⟩

/-- How far the stand-in `zero = z` can move entropies of row `b`, when potentials are at most `B` in absolute value. -/
def errH (p : T4 ℝ) (lengths : Option (List ℕ)) (z B : ℝ) (b : ℕ) : ℝ :=
  (2 + 4 * (2 ^ Nat.clog 2 p.d1 * (|z| + B))) * err p lengths z (-B) b

theorem err_nonneg (p : T4 ℝ) (lengths : Option (List ℕ)) (z m : ℝ) (b : ℕ) : 0 ≤ err p lengths z m b := by unfold err; positivity

theorem errH_tendsto (p : T4 ℝ) (lengths : Option (List ℕ)) (B : ℝ) (b : ℕ) :
    Filter.Tendsto (fun z => errH p lengths z B b) Filter.atBot (nhds 0) := by
  have h0 : Filter.Tendsto (fun z : ℝ => |z| * Real.exp z) Filter.atBot (nhds 0) := by
    have h := (Real.tendsto_pow_mul_exp_neg_atTop_nhds_zero 1).comp Filter.tendsto_neg_atBot_atTop
    refine h.congr' ?_
    filter_upwards [Filter.eventually_le_atBot 0] with z hz
    simp [abs_of_nonpos hz]
  have h1 : Filter.Tendsto (fun z => |z| * err p lengths z (-B) b) Filter.atBot (nhds 0) := by
    have e : ∀ z, |z| * err p lengths z (-B) b = (numEdges p lengths b * Real.exp B +
        ((2 ^ Nat.clog 2 p.d1 - numEdges p lengths b : ℕ) : ℝ) * (2 * p.d2 - 1 : ℕ)) * (|z| * Real.exp z) := by
      intro z
      rw [err, sub_neg_eq_add, Real.exp_add]; ring
    simp only [e]
    simpa using h0.const_mul (numEdges p lengths b * Real.exp B +
        ((2 ^ Nat.clog 2 p.d1 - numEdges p lengths b : ℕ) : ℝ) * (2 * p.d2 - 1 : ℕ))
  have h2 := err_tendsto p lengths (-B) b
  have e : ∀ z, errH p lengths z B b = (2 + 4 * (2 ^ Nat.clog 2 p.d1 * B)) * err p lengths z (-B) b +
      4 * 2 ^ Nat.clog 2 p.d1 * (|z| * err p lengths z (-B) b) := by
    intro z; rw [errH]; ring
  simp only [e]
  simpa using (h2.const_mul (2 + 4 * (2 ^ Nat.clog 2 p.d1 * B))).add (h1.const_mul (4 * 2 ^ Nat.clog 2 p.d1))

theorem entropyZ_plain (z : ℝ) : Plain (Semirings.entropyZ z) := ⟨fun _ => rfl, fun _ _ => rfl⟩
theorem crossEntropyZ_plain (z : ℝ) : Plain (Semirings.crossEntropyZ z) := ⟨fun _ => rfl, fun _ _ => rfl⟩
theorem klZ_plain (z : ℝ) : Plain (Semirings.klZ z) := ⟨fun _ => rfl, fun _ _ => rfl⟩

theorem len_le (p : T4 ℝ) (lengths : Option (List ℕ)) (h : Valid p lengths) (b : ℕ) : numEdges p lengths b ≤ 2 ^ Nat.clog 2 p.d1 := by
  have h1 := lenOf_le h.lens b
  have h2 := le_two_pow_clog p.d1
  unfold numEdges; omega

/-- Entropy computed with a stand-in `z`. -/
theorem entropyZ_spec (z : ℝ) (p : T4 ℝ) (lengths : Option (List ℕ)) (h : Valid p lengths) (B : ℝ) (hB : AbsBound p lengths B) :
    ∃ vs, algo.run (Semirings.entropyZ z) (algo.map Semirings.entropyConvert p) lengths = .ok vs ∧ vs.length = p.d0 ∧
      ∀ b (hb : b < vs.length), |(vs[b]).2 - chainEntropy (numEdges p lengths b) (row p b)| ≤ errH p lengths z B b := by
  obtain ⟨vs, h1, h2, h3⟩ := logpartition_plain (entropyZ_rel z) (entropyZ_plain z) (algo.map Semirings.entropyConvert p) lengths
    h.square h.edges h.classes h.lens (ζ := dual (Real.exp z) z) (by simp [entDual, Semirings.entropyZ])
    (by simp [entDual, Semirings.entropyZ, dual_one])
    (fun b n i j => dual (Real.exp (p.get b n i j)) (p.get b n i j)) (fun b _ n _ i j => by
      change entDual (p.get b n i j, 0) = _
      simp [entDual])
  refine ⟨vs, h1, h2, fun b hb => ?_⟩
  have hb' : b < p.d0 := h2 ▸ hb
  have hlen := len_le p lengths h b
  have hBb := hB.bound b hb'
  have key := expect_bound h.classes z z (-B) (|z| + B) (numEdges p lengths b) (2 ^ Nat.clog 2 p.d1) hlen (row p b) (row p b)
    (by linarith [hB.nonneg]) (fun n hn i j => by have := hBb n hn i j; have := abs_nonneg z; linarith)
    (fun n hn i j => (abs_le.1 (hBb n hn i j)).1) _ (h3 b hb)
  have e1 : (entDual vs[b]).fst = Real.exp (vs[b]).1 := by simp [entDual]
  have e2 : (entDual vs[b]).snd / (entDual vs[b]).fst = (vs[b]).1 - (vs[b]).2 := by
    rw [e1, entDual, snd_dual]; field_simp
  rw [e2, e1, Real.log_exp] at key
  rw [chainEntropy_eq h.classes, errH, err_eq]
  obtain ⟨k1, k2⟩ := key
  have hs := slack_nonneg z (-B) (lenOf (p.d1 + 1) lengths b - 1) (2 ^ Nat.clog 2 p.d1 - (lenOf (p.d1 + 1) lengths b - 1)) p.d2
  have hK : 0 ≤ (2 : ℝ) ^ Nat.clog 2 p.d1 * (|z| + B) := by have := hB.nonneg; positivity
  rw [abs_le] at k1 k2 ⊢
  simp only [numEdges] at k1 k2 ⊢
  push_cast at k1 k2
  constructor <;> nlinarith

/-- **C09.** `LinearChainCRF.entropy` is the Shannon entropy of the distribution over tag sequences of the row's length, up to the
explicit error of the stand-in `zero = -1e5`. -/
theorem entropy_spec (p : T4 ℝ) (lengths : Option (List ℕ)) (h : Valid p lengths) (B : ℝ) (hB : AbsBound p lengths B) :
    ∃ vs, Dist.entropy algo p lengths = .ok vs ∧ vs.length = p.d0 ∧
      ∀ b (hb : b < vs.length), |vs[b] - chainEntropy (numEdges p lengths b) (row p b)| ≤ errH p lengths (-100000) B b := by
  obtain ⟨vs, h1, h2, h3⟩ := entropyZ_spec (-100000) p lengths h B hB
  refine ⟨vs.map Prod.snd, (congrArg (Except.map (List.map Prod.snd)) h1 :), by simpa using h2, fun b hb => ?_⟩
  simpa using h3 b (by simpa using hb)

/-- **C09** (limit form). As the stand-in for `log 0` goes to minus infinity, the computed entropies converge to the Shannon entropies. -/
theorem entropy_limit (p : T4 ℝ) (lengths : Option (List ℕ)) (h : Valid p lengths) :
    ∃ v : ℝ → ℕ → ℝ,
      (∀ z, ∃ vs, algo.run (Semirings.entropyZ z) (algo.map Semirings.entropyConvert p) lengths = .ok vs ∧
        vs.map Prod.snd = (List.range p.d0).map (v z)) ∧
      ∀ b < p.d0, Filter.Tendsto (fun z => v z b) Filter.atBot (nhds (chainEntropy (numEdges p lengths b) (row p b))) := by
  obtain ⟨B, hB⟩ := exists_absBound p lengths
  choose vs h1 h2 h3 using fun z => entropyZ_spec z p lengths h B hB
  refine ⟨fun z b => ((vs z).getD b 0).2, fun z => ⟨vs z, h1 z, ?_⟩, fun b hb => ?_⟩
  · apply List.ext_getElem
    · simp [h2]
    · intro b hb hb'
      simp at hb
      simp [hb]
  · rw [tendsto_iff_norm_sub_tendsto_zero]
    refine squeeze_zero (fun z => norm_nonneg _) (fun z => ?_) (errH_tendsto p lengths B b)
    have hb' : b < (vs z).length := by rw [h2]; exact hb
    have := h3 z b hb'
    beta_reduce
    rw [List.getD_eq_getElem _ _ hb']
    exact this

/-- **C09**: the entropy it computes is that of a distribution over `C^(edges+1)` sequences: it is between 0 and `(edges+1) log C`. -/
theorem chainEntropy_bounds {L C : ℕ} (hC : 0 < C) (φ : ℕ → Fin C → Fin C → ℝ) :
    0 ≤ chainEntropy L φ ∧ chainEntropy L φ ≤ (L + 1) * Real.log C := by
  have hP0 : ∀ y : Tags L C, 0 < chainP φ y := fun y => div_pos (Real.exp_pos _) (chainZ_pos hC φ L)
  have hs := sum_chainP' (L := L) hC φ
  constructor
  · rw [chainEntropy, neg_nonneg]
    refine sum_nonpos fun y _ => mul_nonpos_of_nonneg_of_nonpos (hP0 y).le (Real.log_nonpos (hP0 y).le ?_)
    rw [← hs]; exact single_le_sum (f := fun y => chainP φ y) (fun y _ => (hP0 y).le) (mem_univ y)
  · -- Gibbs against the uniform distribution
    have hN : (0 : ℝ) < (C : ℝ) ^ (L + 1) := by positivity
    have key : ∀ y : Tags L C, chainP φ y * (- Real.log (chainP φ y) - (L + 1) * Real.log C) ≤ 1 / (C : ℝ) ^ (L + 1) - chainP φ y := by
      intro y
      have e : - Real.log (chainP φ y) - (L + 1) * Real.log C = Real.log (1 / (C : ℝ) ^ (L + 1) / chainP φ y) := by
        rw [Real.log_div (by positivity) (hP0 y).ne', Real.log_div one_ne_zero hN.ne', Real.log_pow, Real.log_one]
        push_cast; ring
      rw [e]
      have := Real.log_le_sub_one_of_pos (show 0 < 1 / (C : ℝ) ^ (L + 1) / chainP φ y from div_pos (by positivity) (hP0 y))
      calc _ ≤ chainP φ y * (1 / (C : ℝ) ^ (L + 1) / chainP φ y - 1) := mul_le_mul_of_nonneg_left this (hP0 y).le
        _ = _ := by have := (hP0 y).ne'; field_simp
    have := sum_le_sum fun y (_ : y ∈ univ) => key y
    simp only [mul_sub, sum_sub_distrib, ← sum_mul, hs, sum_const, card_univ, Fintype.card_fun, Fintype.card_fin, nsmul_eq_mul] at this
    rw [chainEntropy]
    simp only [mul_neg, sum_neg_distrib] at this
    push_cast at this
    rw [mul_one_div_cancel hN.ne'] at this
    linarith

/-- The log-partition computed with a stand-in `z` (for a real total). -/
theorem log_total {C : ℕ} (hC : 0 < C) (z m : ℝ) (L M : ℕ) (h : L ≤ M) (φ : ℕ → Fin C → Fin C → ℝ)
    (hm : ∀ n < L, ∀ i j, m ≤ φ n i j) (v : ℝ)
    (hv : Real.exp v = (1 + (2 * C - 1 : ℕ) * Real.exp z) ^ (M - L) * chainSum L (fun n i j => Real.exp (φ n i j) + Real.exp z)) :
    |v - Real.log (chainZ L φ)| ≤ slack z m L (M - L) C := by
  rw [← chainSum_w hC z φ L M h] at hv
  have hZ0 := chainZ_pos hC φ L
  have hZ1 := chainZ_le hC z φ L M h
  have hup := chainSum_w_le hC z m φ L M h hm
  rw [← hv] at hZ1 hup
  have e1 := Real.log_le_log hZ0 hZ1
  have e2 := Real.log_le_log (hZ0.trans_le hZ1) hup
  rw [Real.log_mul hZ0.ne' (Real.exp_pos _).ne', Real.log_exp, Real.log_exp] at e2
  rw [Real.log_exp] at e1
  have := slack_nonneg z m L (M - L) C
  rw [abs_le]; constructor <;> linarith

/-- Two tables of potentials of the same shape. -/
structure SameShape (p q : T4 ℝ) : Prop where
  d0 : p.d0 = q.d0
  d1 : p.d1 = q.d1
  d2 : p.d2 = q.d2
  d3 : p.d3 = q.d3

/-- The potentials of row `b` of `q`, read with the shape of `p`. -/
def rowAs (p q : T4 ℝ) (b : ℕ) : ℕ → Fin p.d2 → Fin p.d2 → ℝ := fun n i j => q.get b n i j

/-- `B` bounds the potentials of both distributions. -/
structure PairBound (p q : T4 ℝ) (lengths : Option (List ℕ)) (B : ℝ) : Prop where
  left : AbsBound p lengths B
  right : ∀ b < p.d0, ∀ n < numEdges p lengths b, ∀ i j : Fin p.d2, |rowAs p q b n i j| ≤ B

/-- **C10.** `cross_entropy(other)` is `-Σ p log q` over the tag sequences of the row's length, up to the explicit error of the
stand-in `zero = -1e5`. -/
theorem crossEntropy_spec (p q : T4 ℝ) (lengths : Option (List ℕ)) (h : Valid p lengths) (hs : SameShape p q) (B : ℝ)
    (hB : PairBound p q lengths B) :
    ∃ vs, crossEntropy p q lengths = .ok vs ∧ vs.length = p.d0 ∧ ∀ b (hb : b < vs.length),
      |vs[b] - chainCE (numEdges p lengths b) (row p b) (rowAs p q b)| ≤ errH p lengths (-100000) B b := by
  set x : T4 (ℝ × ℝ × ℝ) := ⟨p.d0, p.d1, p.d2, p.d3, fun a b c d => Semirings.pairConvert (p.get a b c d, q.get a b c d)⟩ with hx
  have hpair : pairPotentials p q = .ok x := by rw [pairPotentials, if_pos ⟨hs.d0, hs.d1, hs.d2, hs.d3⟩]
  have R1 := (crossEntropyZ_rel (-100000)).comp (RingHom.fst (TrivSqZeroExt ℝ ℝ) ℝ)
  have R2 := (crossEntropyZ_rel (-100000)).comp (RingHom.snd (TrivSqZeroExt ℝ ℝ) ℝ)
  obtain ⟨vs, h1, h2, h3⟩ := logpartition_plain R1 (crossEntropyZ_plain _) x lengths h.square h.edges h.classes h.lens
    (ζ := dual (Real.exp (-100000)) (-100000)) (by simp [ceDual, Semirings.crossEntropyZ])
    (by simp [ceDual, Semirings.crossEntropyZ, dual_one])
    (fun b n i j => dual (Real.exp (p.get b n i j)) (q.get b n i j)) (fun b _ n _ i j => by simp [hx, ceDual, Semirings.pairConvert])
  obtain ⟨vs', h1', h2', h3'⟩ := logpartition_plain R2 (crossEntropyZ_plain _) x lengths h.square h.edges h.classes h.lens
    (ζ := Real.exp (-100000)) (by simp [ceDual, Semirings.crossEntropyZ])
    (by simp [ceDual, Semirings.crossEntropyZ])
    (fun b n i j => Real.exp (q.get b n i j)) (fun b _ n _ i j => by simp [hx, ceDual, Semirings.pairConvert])
  obtain rfl : vs = vs' := Except.ok.inj (h1.symm.trans h1')
  refine ⟨vs.map fun a => a.2.2, ?_, by simpa using h2, fun b hb => ?_⟩
  · simp only [crossEntropy, hpair, bind, Except.bind]
    exact (congrArg (Except.map (List.map fun a => a.2.2)) h1 :)
  have hbv : b < vs.length := by simpa using hb
  have hb' : b < p.d0 := by rw [h2] at hbv; exact hbv
  have hlen := len_le p lengths h b
  have hl := hB.left.bound b hb'
  have hr := hB.right b hb'
  have key := expect_bound h.classes (-100000) (-100000) (-B) (|(-100000 : ℝ)| + B) (numEdges p lengths b) (2 ^ Nat.clog 2 p.d1) hlen
    (row p b) (rowAs p q b) (by linarith [hB.left.nonneg]) (fun n hn i j => by have := hr n hn i j; have := abs_nonneg (-100000 : ℝ); linarith)
    (fun n hn i j => (abs_le.1 (hl n hn i j)).1) _ (h3 b hbv)
  have keyQ := log_total h.classes (-100000) (-B) (numEdges p lengths b) (2 ^ Nat.clog 2 p.d1) hlen (rowAs p q b)
    (fun n hn i j => (abs_le.1 (hr n hn i j)).1) (vs[b]).2.1 (h3' b hbv)
  have e2 : (RingHom.fst (TrivSqZeroExt ℝ ℝ) ℝ (ceDual vs[b])).snd / (RingHom.fst (TrivSqZeroExt ℝ ℝ) ℝ (ceDual vs[b])).fst =
      (vs[b]).2.1 - (vs[b]).2.2 := by
    simp only [ceDual, RingHom.coe_fst, snd_dual, fst_dual]; field_simp
  rw [e2] at key
  rw [List.getElem_map, chainCE_eq h.classes, errH, err_eq]
  obtain ⟨-, k2⟩ := key
  have hs := slack_nonneg (-100000) (-B) (lenOf (p.d1 + 1) lengths b - 1) (2 ^ Nat.clog 2 p.d1 - (lenOf (p.d1 + 1) lengths b - 1)) p.d2
  have hK : 0 ≤ (2 : ℝ) ^ Nat.clog 2 p.d1 * (|(-100000 : ℝ)| + B) := by have := hB.left.nonneg; positivity
  rw [abs_le] at keyQ k2 ⊢
  simp only [numEdges] at keyQ k2 ⊢
  push_cast at keyQ k2
  constructor <;> nlinarith

/-- **C10.** `kl(other)` is the Kullback-Leibler divergence of the two distributions over the tag sequences of the row's length, up to
the explicit error of the stand-in `zero = -1e5`. -/
theorem kl_spec (p q : T4 ℝ) (lengths : Option (List ℕ)) (h : Valid p lengths) (hs : SameShape p q) (B : ℝ)
    (hB : PairBound p q lengths B) :
    ∃ vs, kl p q lengths = .ok vs ∧ vs.length = p.d0 ∧ ∀ b (hb : b < vs.length),
      |vs[b] - chainKL (numEdges p lengths b) (row p b) (rowAs p q b)| ≤ errH p lengths (-100000) B b := by
  set x : T4 (ℝ × ℝ × ℝ) := ⟨p.d0, p.d1, p.d2, p.d3, fun a b c d => Semirings.pairConvert (p.get a b c d, q.get a b c d)⟩ with hx
  have hpair : pairPotentials p q = .ok x := by rw [pairPotentials, if_pos ⟨hs.d0, hs.d1, hs.d2, hs.d3⟩]
  have R1 := (klZ_rel (-100000)).comp (RingHom.fst (TrivSqZeroExt ℝ ℝ) ℝ)
  have R2 := (klZ_rel (-100000)).comp (RingHom.snd (TrivSqZeroExt ℝ ℝ) ℝ)
  obtain ⟨vs, h1, h2, h3⟩ := logpartition_plain R1 (klZ_plain _) x lengths h.square h.edges h.classes h.lens
    (ζ := dual (Real.exp (-100000)) 0) (by simp [klDual, Semirings.klZ])
    (by simp [klDual, Semirings.klZ, dual_one])
    (fun b n i j => dual (Real.exp (p.get b n i j)) (p.get b n i j - q.get b n i j)) (fun b _ n _ i j => by
      simp [hx, klDual, Semirings.pairConvert])
  obtain ⟨vs', h1', h2', h3'⟩ := logpartition_plain R2 (klZ_plain _) x lengths h.square h.edges h.classes h.lens
    (ζ := Real.exp (-100000)) (by simp [klDual, Semirings.klZ])
    (by simp [klDual, Semirings.klZ])
    (fun b n i j => Real.exp (q.get b n i j)) (fun b _ n _ i j => by simp [hx, klDual, Semirings.pairConvert])
  obtain rfl : vs = vs' := Except.ok.inj (h1.symm.trans h1')
  refine ⟨vs.map fun a => a.2.2, ?_, by simpa using h2, fun b hb => ?_⟩
  · simp only [kl, hpair, bind, Except.bind]
    exact (congrArg (Except.map (List.map fun a => a.2.2)) h1 :)
  have hbv : b < vs.length := by simpa using hb
  have hb' : b < p.d0 := by rw [h2] at hbv; exact hbv
  have hlen := len_le p lengths h b
  have hl := hB.left.bound b hb'
  have hr := hB.right b hb'
  have hB0 := hB.left.nonneg
  have key := expect_bound h.classes (-100000) 0 (-B) (2 * B) (numEdges p lengths b) (2 ^ Nat.clog 2 p.d1) hlen
    (row p b) (fun n i j => row p b n i j - rowAs p q b n i j) (by rw [abs_zero]; linarith) (fun n hn i j => by
      have h1 := hr n hn i j; have h2 := hl n hn i j; have := abs_sub (row p b n i j) (rowAs p q b n i j); linarith)
    (fun n hn i j => (abs_le.1 (hl n hn i j)).1) _ (h3 b hbv)
  have keyQ := log_total h.classes (-100000) (-B) (numEdges p lengths b) (2 ^ Nat.clog 2 p.d1) hlen (rowAs p q b)
    (fun n hn i j => (abs_le.1 (hr n hn i j)).1) (vs[b]).2.1 (h3' b hbv)
  have e1 : (RingHom.fst (TrivSqZeroExt ℝ ℝ) ℝ (klDual vs[b])).fst = Real.exp (vs[b]).1 := by simp [klDual]
  have e2 : (RingHom.fst (TrivSqZeroExt ℝ ℝ) ℝ (klDual vs[b])).snd / (RingHom.fst (TrivSqZeroExt ℝ ℝ) ℝ (klDual vs[b])).fst =
      (vs[b]).2.2 + (vs[b]).1 - (vs[b]).2.1 := by
    simp only [klDual, RingHom.coe_fst, snd_dual, fst_dual]; field_simp
  rw [e2, e1, Real.log_exp, chainE_sub] at key
  rw [List.getElem_map, chainKL_eq h.classes, chainCE_eq h.classes, chainEntropy_eq h.classes, errH, err_eq]
  obtain ⟨k1, k2⟩ := key
  have hs := slack_nonneg (-100000) (-B) (lenOf (p.d1 + 1) lengths b - 1) (2 ^ Nat.clog 2 p.d1 - (lenOf (p.d1 + 1) lengths b - 1)) p.d2
  have hM : (0 : ℝ) ≤ 2 ^ Nat.clog 2 p.d1 := by positivity
  have hK : 0 ≤ (2 : ℝ) ^ Nat.clog 2 p.d1 * |(-100000 : ℝ)| := by positivity
  rw [abs_le] at keyQ k1 k2 ⊢
  simp only [numEdges] at keyQ k1 k2 ⊢
  push_cast at keyQ k1 k2
  set s := slack (-100000) (-B) (lenOf (p.d1 + 1) lengths b - 1) (2 ^ Nat.clog 2 p.d1 - (lenOf (p.d1 + 1) lengths b - 1)) p.d2
  have hMs : 0 ≤ (2 : ℝ) ^ Nat.clog 2 p.d1 * |(-100000 : ℝ)| * s := mul_nonneg hK hs
  constructor <;> nlinarith

/-- **C10**: the divergence is non-negative, zero against itself, and equals cross entropy minus entropy. -/
theorem chainKL_facts {L C : ℕ} (hC : 0 < C) (φ ψ : ℕ → Fin C → Fin C → ℝ) :
    0 ≤ chainKL L φ ψ ∧ chainKL L φ φ = 0 ∧ chainKL L φ ψ = chainCE L φ ψ - chainEntropy L φ := by
  refine ⟨?_, by simp [chainKL], chainKL_eq hC L φ ψ⟩
  have hP0 : ∀ (φ : ℕ → Fin C → Fin C → ℝ) (y : Tags L C), 0 < chainP φ y := fun φ y => div_pos (Real.exp_pos _) (chainZ_pos hC φ L)
  have key : ∀ y : Tags L C, chainP φ y - chainP ψ y ≤ chainP φ y * (Real.log (chainP φ y) - Real.log (chainP ψ y)) := by
    intro y
    have := Real.log_le_sub_one_of_pos (show 0 < chainP ψ y / chainP φ y from div_pos (hP0 ψ y) (hP0 φ y))
    rw [Real.log_div (hP0 ψ y).ne' (hP0 φ y).ne'] at this
    have h2 := mul_le_mul_of_nonneg_left this (hP0 φ y).le
    have e : chainP φ y * (chainP ψ y / chainP φ y - 1) = chainP ψ y - chainP φ y := by have := (hP0 φ y).ne'; field_simp
    rw [e] at h2
    nlinarith
  have := sum_le_sum fun y (_ : y ∈ univ) => key y
  rw [sum_sub_distrib, sum_chainP' hC, sum_chainP' hC, sub_self] at this
  exact this

/-- The hypotheses of the theorems above are met by the sample batch. -/
example : ∃ B, AbsBound sample (some [3, 2]) B ∧ Valid sample (some [3, 2]) := by
  obtain ⟨B, hB⟩ := exists_absBound sample (some [3, 2])
  exact ⟨B, hB, sample_valid⟩

/-- …and by the sample against itself shifted by one. -/
example : ∃ B, PairBound sample ⟨2, 2, 2, 2, fun b n i j => sample.get b n i j + 1⟩ (some [3, 2]) B ∧
    SameShape sample ⟨2, 2, 2, 2, fun b n i j => sample.get b n i j + 1⟩ := by
  obtain ⟨B, hB⟩ := exists_absBound sample (some [3, 2])
  refine ⟨B + 1, ⟨⟨by linarith [hB.nonneg], fun b hb n hn i j => by linarith [hB.bound b hb n hn i j]⟩, fun b hb n hn i j => ?_⟩, rfl, rfl, rfl, rfl⟩
  have := hB.bound b hb n hn i j
  have h2 := abs_add_le (row sample b n i j) 1
  rw [abs_one] at h2
  exact h2.trans (by linarith)

end Props.LinearChain
