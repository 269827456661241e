import Verif.Spec.HMMZero
import Verif.Props.HMM
import Verif.Props.InfArgmax
import Verif.Props.InfSample
import Verif.Props.InfEntropy

/-! C126: an `HMM` whose probability tables have zeros.

The tables given to `HMM` hold log-probabilities, so that a zero is `-inf`. -/

open Finset Spec
open Props.HMM (Symbols IsObs)
open Props.ChainInfinity (Formula Within allowed share allowed_eq)
open Props.Conditional (forbid4 TagsAvoid tagsAvoid_iff)
open Props.TreeInfinity (weight)
open Props.InfArgmax (Pick)
open Autograd (IsArgmaxE)

noncomputable section
namespace Props.HMMZero
open Props.LinearChain (Valid numEdges row)

theorem lg_mul (a b : ℝ) : logOrBot (a * b) = logOrBot a + logOrBot b := by
  unfold logOrBot
  by_cases ha : a = 0
  · simp [ha]
  · by_cases hb : b = 0
    · simp [hb]
    · rw [if_neg (mul_ne_zero ha hb), if_neg ha, if_neg hb, Real.log_mul ha hb, EReal.coe_add]

/-- The probability tables: no entry is negative. -/
structure Tables (V C : ℕ) (T E : ℕ → ℕ → ℝ) (I : ℕ → ℝ) : Prop where
  transition : ∀ i < C, ∀ j < C, 0 ≤ T i j
  emission : ∀ v < V, ∀ c < C, 0 ≤ E v c
  init : ∀ c < C, 0 ≤ I c

/-- The entries of the tables that are not 0 are between `exp (-B)` and 1. -/
structure Bounded (V C : ℕ) (T E : ℕ → ℕ → ℝ) (I : ℕ → ℝ) (B : ℝ) : Prop where
  transition : ∀ i < C, ∀ j < C, T i j = 0 ∨ Real.exp (-B) ≤ T i j ∧ T i j ≤ 1
  emission : ∀ v < V, ∀ c < C, E v c = 0 ∨ Real.exp (-B) ≤ E v c ∧ E v c ≤ 1
  init : ∀ c < C, I c = 0 ∨ Real.exp (-B) ≤ I c ∧ I c ≤ 1

theorem Bounded.tables {V C : ℕ} {T E : ℕ → ℕ → ℝ} {I : ℕ → ℝ} {B : ℝ} (h : Bounded V C T E I B) : Tables V C T E I where
  transition := fun i hi j hj => (h.transition i hi j hj).elim (fun h => h.ge) fun h => (Real.exp_pos _).le.trans h.1
  emission := fun i hi j hj => (h.emission i hi j hj).elim (fun h => h.ge) fun h => (Real.exp_pos _).le.trans h.1
  init := fun i hi => (h.init i hi).elim (fun h => h.ge) fun h => (Real.exp_pos _).le.trans h.1

abbrev tab (C : ℕ) (T : ℕ → ℕ → ℝ) : Fin C → Fin C → ℝ := fun i j => T i j
abbrev tabE (V C : ℕ) (E : ℕ → ℕ → ℝ) : Fin V → Fin C → ℝ := fun v c => E v c
abbrev tabI (C : ℕ) (I : ℕ → ℝ) : Fin C → ℝ := fun c => I c

/-- The factors that `hmm` puts on one transition. -/
def cell (T E : ℕ → ℕ → ℝ) (I : ℕ → ℝ) (x : T2 ℕ) (b n i j : ℕ) : ℝ :=
  let obs : ℕ → ℕ → ℕ → ℝ := fun b n => Struct.unflat x.d1 (fun r => E (Struct.flat x.d1 x.get r)) b n
  T i j * (if n = 0 then I j else 1) * obs b (n + 1) i * (if n = 0 then obs b 0 j else 1)

def pot (C : ℕ) (T E : ℕ → ℕ → ℝ) (I : ℕ → ℝ) (x : T2 ℕ) : T4 ℝ := ⟨x.d0, x.d1 - 1, C, C, fun b n i j => Real.log (cell T E I x b n i j)⟩

def zeros (T E : ℕ → ℕ → ℝ) (I : ℕ → ℝ) (x : T2 ℕ) : ℕ → ℕ → ℕ → ℕ → Prop := fun b n i j => cell T E I x b n i j = 0

variable {V C : ℕ} {T E : ℕ → ℕ → ℝ} {I : ℕ → ℝ} {x : T2 ℕ} {lengths : Option (List ℕ)}

theorem hmm_eq (V C : ℕ) (T E : ℕ → ℕ → ℝ) (I : ℕ → ℝ) (hN : 2 ≤ x.d1) (hx : Symbols x V) :
    LinearChain.hmm V C (fun i j => logOrBot (T i j)) (fun v c => logOrBot (E v c)) (fun c => logOrBot (I c)) x =
      .ok (forbid4 (pot C T E I x) (zeros T E I x)) := by
  have hs : ¬ ∃ b ∈ List.range x.d0, ∃ n ∈ List.range x.d1, V ≤ x.get b n := by
    rintro ⟨b, hb, n, hn, h⟩
    have := hx b (List.mem_range.1 hb) n (List.mem_range.1 hn); omega
  unfold LinearChain.hmm
  simp only []
  rw [if_neg (by omega), if_neg (by omega), if_neg hs]
  congr 1
  have e : ∀ b n i j, (forbid4 (pot C T E I x) (zeros T E I x)).get b n i j = logOrBot (cell T E I x b n i j) := by
    intro b n i j
    by_cases h : cell T E I x b n i j = 0 <;> simp [forbid4, pot, zeros, logOrBot, h]
  have : forbid4 (pot C T E I x) (zeros T E I x) = ⟨x.d0, x.d1 - 1, C, C, fun b n i j => logOrBot (cell T E I x b n i j)⟩ := by
    have e' : (forbid4 (pot C T E I x) (zeros T E I x)).get = fun b n i j => logOrBot (cell T E I x b n i j) := by
      funext b n i j; exact e b n i j
    rw [← e']; rfl
  rw [this]
  congr 1
  funext b n i j
  unfold cell Struct.unflat Struct.flat
  by_cases hn : n = 0
  · simp only [hn, if_true, lg_mul, zero_add]
  · simp only [hn, if_false, mul_one, lg_mul, zero_add]

theorem cell_eq (b n i j : ℕ) (hn : n < x.d1 - 1) :
    cell T E I x b n i j = T i j * (if n = 0 then I j else 1) * E (x.get b (n + 1)) i * (if n = 0 then E (x.get b 0) j else 1) := by
  have hr : ∀ k < x.d1, Struct.unflat x.d1 (fun r => E (Struct.flat x.d1 x.get r)) b k = E (x.get b k) := by
    intro k hk
    unfold Struct.unflat Struct.flat
    beta_reduce
    rw [Nat.mul_comm, Nat.mul_add_div (by omega), Nat.div_eq_of_lt hk, Nat.mul_add_mod, Nat.mod_eq_of_lt hk, add_zero]
  simp only [cell, hr (n + 1) (by omega), hr 0 (by omega)]

theorem valid (hN : 2 ≤ x.d1) (hC : 0 < C) (hlen : ValidLengths x.d0 x.d1 lengths) : Valid (pot C T E I x) lengths :=
  ⟨rfl, by simp only [pot]; omega, hC, by simpa only [pot, show x.d1 - 1 + 1 = x.d1 by omega] using hlen⟩

theorem numEdges_eq (hN : 2 ≤ x.d1) {L b : ℕ} (hL : lenOf x.d1 lengths b = L + 1) : L = numEdges (pot C T E I x) lengths b := by
  simp only [numEdges, pot, show x.d1 - 1 + 1 = x.d1 by omega]; omega

theorem cell_nonneg (hT : Tables V C T E I) (hx : Symbols x V) {b n i j : ℕ} (hb : b < x.d0) (hn : n < x.d1 - 1) (hi : i < C) (hj : j < C) : 0 ≤ cell T E I x b n i j := by
  rw [cell_eq b n i j hn]
  have h1 := hT.transition i hi j hj
  have h2 := hT.emission _ (hx b hb (n + 1) (by omega)) i hi
  have h3 := hT.emission _ (hx b hb 0 (by omega)) j hj
  have h4 := hT.init j hj
  split_ifs <;> positivity

theorem cell_within {B : ℝ} (hB0 : 0 ≤ B) (hB : Bounded V C T E I B) (hx : Symbols x V) {b n i j : ℕ} (hb : b < x.d0) (hn : n < x.d1 - 1) (hi : i < C) (hj : j < C) (h0 : cell T E I x b n i j ≠ 0) :
    |Real.log (cell T E I x b n i j)| ≤ 4 * B := by
  have key : ∀ a : ℝ, a = 0 ∨ Real.exp (-B) ≤ a ∧ a ≤ 1 → a ≠ 0 → -B ≤ Real.log a ∧ Real.log a ≤ 0 := by
    rintro a (h | h) h0
    · exact absurd h h0
    · have ha := (Real.exp_pos (-B)).trans_le h.1
      exact ⟨(Real.le_log_iff_exp_le ha).2 h.1, Real.log_nonpos ha.le h.2⟩
  rw [cell_eq b n i j hn] at h0 ⊢
  have h1 := hB.transition i hi j hj
  have h2 := hB.emission _ (hx b hb (n + 1) (by omega)) i hi
  have h3 : (if n = 0 then E (x.get b 0) j else 1) = 0 ∨ Real.exp (-B) ≤ (if n = 0 then E (x.get b 0) j else 1) ∧ (if n = 0 then E (x.get b 0) j else 1) ≤ 1 := by
    split_ifs
    · exact hB.emission _ (hx b hb 0 (by omega)) j hj
    · right; exact ⟨by simpa using hB0, le_rfl⟩
  have h4 : (if n = 0 then I j else 1) = 0 ∨ Real.exp (-B) ≤ (if n = 0 then I j else 1) ∧ (if n = 0 then I j else 1) ≤ 1 := by
    split_ifs
    · exact hB.init j hj
    · right; exact ⟨by simpa using hB0, le_rfl⟩
  generalize (if n = 0 then E (x.get b 0) j else 1) = a3 at *
  generalize (if n = 0 then I j else 1) = a4 at *
  obtain ⟨k123, k3⟩ := mul_ne_zero_iff.1 h0
  obtain ⟨k12, k2⟩ := mul_ne_zero_iff.1 k123
  obtain ⟨k1, k4⟩ := mul_ne_zero_iff.1 k12
  rw [Real.log_mul k123 k3, Real.log_mul k12 k2, Real.log_mul k1 k4, abs_le]
  have := key _ h1 k1
  have := key _ h2 k2
  have := key _ h3 k3
  have := key _ h4 k4
  constructor <;> linarith

theorem cell_zero {L b : ℕ} {x' : Fin (L + 1) → Fin V} (hLN : L < x.d1) (hb : IsObs x b x') (n : Fin L) (i j : Fin C) :
    cell T E I x b n i j = 0 ↔ hmmImpossible (tab C T) (tabE V C E) (tabI C I) x' n i j := by
  rw [cell_eq b n i j (by omega), show x.get b (n + 1) = x' n.succ from hb n.succ, hmmImpossible]
  by_cases hn : (n : ℕ) = 0
  · have : x.get b 0 = x' n.castSucc := by rw [← hb n.castSucc]; simp [hn]
    simp only [hn, if_true, this, mul_eq_zero, true_and, tab, tabE, tabI]
    tauto
  · simp only [hn, if_false, mul_one, mul_eq_zero, false_and, or_false, tab, tabE]

theorem seqProd_weight (hT : Tables V C T E I) (hx : Symbols x V) {L b : ℕ} {x' : Fin (L + 1) → Fin V} (hb0 : b < x.d0) (hL : 1 ≤ L) (hLN : L < x.d1) (hb : IsObs x b x')
    (z : Tags L C) :
    seqProd (fun n (i j : Fin C) => weight (pot C T E I x) (zeros T E I x) b n i j) z = hmmWeight (tab C T) (tabE V C E) (tabI C I) x' z := by
  obtain ⟨m, rfl⟩ : ∃ m, L = m + 1 := ⟨L - 1, by omega⟩
  have e : ∀ n : Fin (m + 1), weight (pot C T E I x) (zeros T E I x) b n (z n.succ) (z n.castSucc) =
      (if n = 0 then I (z 0) else 1) * T (z n.succ) (z n.castSucc) * E (x' n.succ) (z n.succ) * (if n = 0 then E (x' 0) (z 0) else 1) := by
    intro n
    have h0 := cell_nonneg hT hx hb0 (n := n) (by omega) (z n.succ).2 (z n.castSucc).2
    have : weight (pot C T E I x) (zeros T E I x) b n (z n.succ) (z n.castSucc) = cell T E I x b n (z n.succ) (z n.castSucc) := by
      rw [weight]
      split_ifs with h
      · exact h.symm
      · exact Real.exp_log (lt_of_le_of_ne h0 (Ne.symm h))
    rw [this, cell_eq _ _ _ _ (by omega), show x.get b (n + 1) = x' n.succ from hb n.succ, show x.get b 0 = x' 0 from hb 0]
    by_cases hn : n = 0
    · subst hn; simp only [Fin.val_zero, if_true, Fin.castSucc_zero]; ring
    · have : (n : ℕ) ≠ 0 := fun h => hn (Fin.ext h)
      simp [hn, this]
  rw [seqProd, prod_congr rfl fun n _ => e n, hmmWeight]
  simp only [prod_mul_distrib, prod_ite_eq', mem_univ, if_true]
  rw [Fin.prod_univ_succ (fun n : Fin (m + 2) => tabE V C E (x' n) (z n))]
  simp only [tab, tabE, tabI]
  ring

theorem avoid_iff {L b : ℕ} (hT : Tables V C T E I) (hx : Symbols x V) {x' : Fin (L + 1) → Fin V} (hb0 : b < x.d0) (hL : 1 ≤ L) (hLN : L < x.d1) (hb : IsObs x b x') (z : Tags L C) :
    TagsAvoid (zeros T E I x b) z ↔ hmmWeight (tab C T) (tabE V C E) (tabI C I) x' z ≠ 0 := by
  rw [← seqProd_weight hT hx hb0 hL hLN hb, seqProd, prod_ne_zero_iff, tagsAvoid_iff]
  refine forall_congr' fun n => ?_
  simp only [mem_univ, true_imp_iff]
  exact not_congr Props.TreeInfinity.weight_eq_zero.symm

theorem weight_nonneg (hT : Tables V C T E I) {L : ℕ} (x' : Fin (L + 1) → Fin V) (z : Tags L C) : 0 ≤ hmmWeight (tab C T) (tabE V C E) (tabI C I) x' z :=
  mul_nonneg (mul_nonneg (hT.init _ (z 0).2) (prod_nonneg fun _ _ => hT.transition _ (Fin.is_lt _) _ (Fin.is_lt _)))
    (prod_nonneg fun _ _ => hT.emission _ (Fin.is_lt _) _ (Fin.is_lt _))

/-- How far the stand-in `-1e5` for `log 0` can move the results: `N` observations, `C` states, `L + 1` observations in the row, probabilities at least `exp (-B)`. -/
def gap (N C L : ℕ) (B : ℝ) : ℝ :=
  ((2 ^ Nat.clog 2 (N - 1) - L : ℕ) : ℝ) * ((2 * C - 1 : ℕ) * Real.exp (-100000)) + L * Real.exp (-100000 + 4 * B) +
    (C : ℝ) ^ (L + 1) * (Real.exp (4 * B) + Real.exp (-100000)) ^ (L - 1) * Real.exp (-100000 + 4 * B * L)

/-- **C126.** With zeros in the tables, `HMM.partition` of a row with at least two observations is a finite number, even for observations of probability 0, and
`HMM.marginals` is never NaN and is 0 at every impossible pair of states.  If the observations have positive probability, `marginals` is the posterior and `partition` the
log-probability of the observations, up to `gap`. -/
theorem inference {σ : Slope} (hσ : Formula σ) (hT : Tables V C T E I) (hN : 2 ≤ x.d1) (hx : Symbols x V) (hC : 0 < C) (hlen : ValidLengths x.d0 x.d1 lengths) :
    ∃ p vs μ, LinearChain.hmm V C (fun i j => logOrBot (T i j)) (fun v c => logOrBot (E v c)) (fun c => logOrBot (I c)) x = .ok p ∧
      Dist.partitionE LinearChain.algo lengths p = .ok vs ∧ ChainBackward.marginals σ (-100000) p lengths = .ok μ ∧
      ∀ b < x.d0, ∀ L, 1 ≤ L → lenOf x.d1 lengths b = L + 1 → ∀ x' : Fin (L + 1) → Fin V, IsObs x b x' → ∃ v : ℝ, vs[b]? = some (v : EReal) ∧
        ∀ n < x.d1 - 1, ∀ i j : Fin C, ∃ q : ℝ, μ [b, n, (i : ℕ), (j : ℕ)] = IEEE.ofReal q ∧ 0 ≤ q ∧ q ≤ 1 ∧
          (∀ h : n < L, hmmImpossible (tab C T) (tabE V C E) (tabI C I) x' ⟨n, h⟩ i j → q = 0) ∧
          (0 < hmmProb (tab C T) (tabE V C E) (tabI C I) x' →
            |q - hmmEdgeProb (tab C T) (tabE V C E) (tabI C I) x' n i j| ≤ v - Real.log (hmmProb (tab C T) (tabE V C E) (tabI C I) x') ∧
            ∀ B, 0 ≤ B → Bounded V C T E I B → v - Real.log (hmmProb (tab C T) (tabE V C E) (tabI C I) x') ≤ gap x.d1 C L B) := by
  obtain ⟨vs, μ, h1, h2, h3⟩ := ChainInfinity.spec hσ (pot C T E I x) lengths (valid hN hC hlen) (zeros T E I x)
  refine ⟨_, vs, μ, hmm_eq V C T E I hN hx, h1, h2, fun b hb L hL hLl x' hx' => ?_⟩
  have hLN : L < x.d1 := by
    have : lenOf x.d1 lengths b ≤ x.d1 := LinearChainProofs.lenOf_le hlen b
    omega
  obtain ⟨v, hv, h4⟩ := h3 b hb
  refine ⟨v, hv, fun n hn i j => ?_⟩
  obtain ⟨q, hq, q0, q1, hz, hA⟩ := h4 n hn i j
  obtain rfl := numEdges_eq (C := C) (T := T) (E := E) (I := I) hN hLl
  have hsum : allowed (pot C T E I x) lengths (zeros T E I x) b = hmmProb (tab C T) (tabE V C E) (tabI C I) x' := by
    rw [← allowed_eq, chainSum, hmmProb]
    exact sum_congr rfl fun z _ => seqProd_weight hT hx hb hL hLN hx' z
  refine ⟨q, hq, q0, q1, fun h hi => hz h ((cell_zero hLN hx' ⟨n, h⟩ i j).2 hi), fun hpos => ?_⟩
  have hex : ∃ y : Tags (numEdges (pot C T E I x) lengths b) C, TagsAvoid (zeros T E I x b) y := by
    by_contra hno
    push Not at hno
    refine hpos.ne' (sum_eq_zero fun z _ => ?_)
    by_contra h0
    exact hno z ((avoid_iff hT hx hb hL hLN hx' z).2 h0)
  obtain ⟨h5, h6⟩ := hA hex
  have hedge : Gibbs.condProb (seqScore (row (pot C T E I x) b) : Tags (numEdges (pot C T E I x) lengths b) C → ℝ) (TagsAvoid (zeros T E I x b)) (fun y => UsesEdge y n i j) =
      hmmEdgeProb (tab C T) (tabE V C E) (tabI C I) x' n i j := by
    refine (share (p := pot C T E I x) (F := zeros T E I x) hC b n i j).symm.trans ?_
    rw [hsum, hmmEdgeProb]
    congr 1
    change (∑ z : Tags (numEdges (pot C T E I x) lengths b) C, if UsesEdge z n i j then
      seqProd (fun n (i j : Fin C) => weight (pot C T E I x) (zeros T E I x) b n i j) z else 0) = _
    exact sum_congr rfl fun z _ => if_congr Iff.rfl (seqProd_weight hT hx hb hL hLN hx' z) rfl
  rw [hsum] at h5 h6
  refine ⟨le_of_eq_of_le (congrArg (fun c => |q - c|) hedge.symm) h5, fun B hB0 hB => h6 (4 * B) ?_⟩
  intro n hn i j h0
  exact cell_within hB0 hB hx hb (by omega) i.2 j.2 h0

/-- **C126.** `HMM.argmax` is a state sequence of the largest posterior probability and `HMM.max` the logarithm of its joint probability with the observations, if there is one
of positive probability and `8 (N - 1) B < 1e5`, where `exp (-B)` is the smallest positive entry of the tables. -/
theorem viterbi {B : ℝ} (hB0 : 0 ≤ B) (hB : Bounded V C T E I B) (hN : 2 ≤ x.d1) (hx : Symbols x V) (hC : 0 < C) (hlen : ValidLengths x.d0 x.d1 lengths)
    (hsmall : 8 * ((x.d1 - 1 : ℕ) : ℝ) * B < 100000) {pick : Pick} (hp : IsArgmaxE Prod.fst pick) :
    ∃ p μ vs, LinearChain.hmm V C (fun i j => logOrBot (T i j)) (fun v c => logOrBot (E v c)) (fun c => logOrBot (I c)) x = .ok p ∧
      Dist.argmaxE LinearChain.algo p lengths pick = .ok μ ∧ Dist.maxE LinearChain.algo p lengths = .ok vs ∧ vs.length = x.d0 ∧
      ∀ b (hb : b < vs.length), ∀ L, 1 ≤ L → lenOf x.d1 lengths b = L + 1 → ∀ x' : Fin (L + 1) → Fin V, IsObs x b x' →
        0 < hmmProb (tab C T) (tabE V C E) (tabI C I) x' →
        ∃ z : Tags L C, 0 < hmmWeight (tab C T) (tabE V C E) (tabI C I) x' z ∧ vs[b] = (Real.log (hmmWeight (tab C T) (tabE V C E) (tabI C I) x' z) : ℝ) ∧
          (∀ z' : Tags L C, hmmWeight (tab C T) (tabE V C E) (tabI C I) x' z' ≤ hmmWeight (tab C T) (tabE V C E) (tabI C I) x' z) ∧
          ∀ n < x.d1 - 1, ∀ i j : Fin C, μ [b, n, (i : ℕ), (j : ℕ)] = if UsesEdge z n i j then 1 else 0 := by
  classical
  have hin : ∀ b < (pot C T E I x).d0, Within (pot C T E I x) lengths (zeros T E I x) (4 * B) b := by
    intro b hb n hn i j h0
    have : numEdges (pot C T E I x) lengths b ≤ x.d1 - 1 := by
      have := LinearChainProofs.lenOf_le hlen b
      simp only [numEdges, pot, show x.d1 - 1 + 1 = x.d1 by omega]; omega
    exact cell_within hB0 hB hx hb (by omega) i.2 j.2 h0
  obtain ⟨μ, vs, h1, h2, h3, h4⟩ := InfArgmax.chain_spec (pot C T E I x) lengths (valid hN hC hlen) (zeros T E I x) (B := 4 * B) (by linarith) hin
    (by simp only [pot]; linarith) hp
  refine ⟨_, μ, vs, hmm_eq V C T E I hN hx, h1, h2, h3, fun b hb L hL hLl x' hx' hpos => ?_⟩
  have hb' : b < x.d0 := by have : vs.length = x.d0 := h3; omega
  have hLN : L < x.d1 := by
    have : lenOf x.d1 lengths b ≤ x.d1 := LinearChainProofs.lenOf_le hlen b
    omega
  obtain rfl := numEdges_eq (C := C) (T := T) (E := E) (I := I) hN hLl
  have hT := hB.tables
  have hex : ∃ y : Tags (numEdges (pot C T E I x) lengths b) C, TagsAvoid (zeros T E I x b) y := by
    by_contra hno
    push Not at hno
    refine hpos.ne' (sum_eq_zero fun z _ => ?_)
    by_contra h0
    exact hno z ((avoid_iff hT hx hb' hL hLN hx' z).2 h0)
  have hexp : ∀ z : Tags (numEdges (pot C T E I x) lengths b) C, TagsAvoid (zeros T E I x b) z →
      Real.exp (seqScore (row (pot C T E I x) b) z) = hmmWeight (tab C T) (tabE V C E) (tabI C I) x' z := by
    intro z hz
    rw [← seqProd_weight hT hx hb' hL hLN hx' z]
    have := ChainInfinity.seq_weight (p := pot C T E I x) (F := zeros T E I x) b z
    exact (this.trans (if_pos hz)).symm
  obtain ⟨z, hz, g1, g2, g3⟩ := h4 b hb hex
  refine ⟨z, ?_, ?_, fun z' => ?_, g3⟩
  · rw [← hexp z hz]; exact Real.exp_pos _
  · rw [g1, ← hexp z hz, Real.log_exp]
  · by_cases h0 : TagsAvoid (zeros T E I x b) z'
    · rw [← hexp z hz, ← hexp z' h0]; exact Real.exp_le_exp.2 (g2 z' h0)
    · have : hmmWeight (tab C T) (tabE V C E) (tabI C I) x' z' = 0 := by
        by_contra h1; exact h0 ((avoid_iff hT hx hb' hL hLN hx' z').2 h1)
      rw [this]; exact weight_nonneg hT x' z

/-- **C126.** `HMM.sample` does not raise and never draws an impossible pair of states. -/
theorem sampling (hN : 2 ≤ x.d1) (hx : Symbols x V) (hC : 0 < C) (hlen : ValidLengths x.d0 x.d1 lengths) :
    ∃ p D, LinearChain.hmm V C (fun i j => logOrBot (T i j)) (fun v c => logOrBot (E v c)) (fun c => logOrBot (I c)) x = .ok p ∧
      LinearChain.sampleE p lengths = .ok D ∧ D.length = x.d0 ∧ ∀ b (hb : b < D.length), D[b].Nonempty ∧
      ∀ u ∈ D[b], ∀ L, lenOf x.d1 lengths b = L + 1 → ∀ x' : Fin (L + 1) → Fin V, IsObs x b x' → ∀ (n : Fin L) (i j : Fin C),
        hmmImpossible (tab C T) (tabE V C E) (tabI C I) x' n i j → u [b, (n : ℕ), (i : ℕ), (j : ℕ)] = 0 := by
  obtain ⟨D, h1, h2, h3⟩ := InfSample.chain_spec (pot C T E I x) lengths (valid hN hC hlen) (zeros T E I x)
  refine ⟨_, D, hmm_eq V C T E I hN hx, h1, h2, fun b hb => ⟨(h3 b hb).1, fun u hu L hLl x' hx' n i j hi => ?_⟩⟩
  have hLN : L < x.d1 := by
    have : lenOf x.d1 lengths b ≤ x.d1 := LinearChainProofs.lenOf_le hlen b
    omega
  have hn : (n : ℕ) < numEdges (pot C T E I x) lengths b := by
    rw [← numEdges_eq (C := C) (T := T) (E := E) (I := I) hN hLl]; exact n.2
  exact (h3 b hb).2 u hu n hn i j ((cell_zero hLN hx' n i j).2 hi)

/-- **C126.** `HMM.entropy` is NaN for every row with an impossible pair of states, although the posterior has an entropy. -/
theorem entropy_nan (hN : 2 ≤ x.d1) (hx : Symbols x V) (hC : 0 < C) (hlen : ValidLengths x.d0 x.d1 lengths) :
    ∃ p vs, LinearChain.hmm V C (fun i j => logOrBot (T i j)) (fun v c => logOrBot (E v c)) (fun c => logOrBot (I c)) x = .ok p ∧
      Dist.entropyE LinearChain.algo p lengths = .ok vs ∧ vs.length = x.d0 ∧
      ∀ b < x.d0, ∀ L, lenOf x.d1 lengths b = L + 1 → ∀ x' : Fin (L + 1) → Fin V, IsObs x b x' →
        (∃ (n : Fin L) (i j : Fin C), hmmImpossible (tab C T) (tabE V C E) (tabI C I) x' n i j) → vs[b]? = some IEEE.nan := by
  obtain ⟨vs, us, h1, -, h2, -, h3⟩ := InfEntropy.chain_entropy (pot C T E I x) lengths (valid hN hC hlen) (zeros T E I x)
  refine ⟨_, vs, hmm_eq V C T E I hN hx, h1, h2, fun b hb L hLl x' hx' ⟨n, i, j, hi⟩ => (h3 b hb).1 ⟨n, ?_, i, i.2, j, j.2, ?_⟩⟩
  · rw [← numEdges_eq (C := C) (T := T) (E := E) (I := I) hN hLl]; exact n.2
  · have hLN : L < x.d1 := by
      have : lenOf x.d1 lengths b ≤ x.d1 := LinearChainProofs.lenOf_le hlen b
      omega
    exact (cell_zero hLN hx' n i j).2 hi

/-! A concrete case: a model with two states that starts in state 0 and never goes back from state 1, two symbols, observations `0 1 0` and `1 1`. -/

def T₀ : ℕ → ℕ → ℝ := fun i j => if j = 0 then 1 / 2 else if i = 0 then 0 else 1
def E₀ : ℕ → ℕ → ℝ := fun _ _ => 1 / 2
def I₀ : ℕ → ℝ := fun c => if c = 0 then 1 else 0
def x₀ : T2 ℕ := ⟨2, 3, fun b n => if b = 1 ∨ n = 1 then 1 else 0⟩

theorem bounded₀ : Bounded 2 2 T₀ E₀ I₀ (Real.log 2) := by
  have e : Real.exp (-Real.log 2) = 1 / 2 := by rw [Real.exp_neg, Real.exp_log (by norm_num)]; norm_num
  constructor
  · intro i _ j _; rw [e]; unfold T₀; split_ifs <;> norm_num
  · intro i _ j _; rw [e]; unfold E₀; norm_num
  · intro c _; rw [e]; unfold I₀; split_ifs <;> norm_num

theorem symbols₀ : Symbols x₀ 2 := by
  intro b _ n _; simp only [x₀]; split_ifs <;> norm_num

theorem lens₀ : ValidLengths x₀.d0 x₀.d1 (some [3, 2]) := by
  refine ⟨rfl, ?_, ?_⟩ <;> simp [x₀]

theorem pos₀ {L : ℕ} (x' : Fin (L + 1) → Fin 2) : 0 < hmmProb (tab 2 T₀) (tabE 2 2 E₀) (tabI 2 I₀) x' := by
  refine lt_of_lt_of_le ?_ (single_le_sum (fun z _ => weight_nonneg bounded₀.tables x' z) (mem_univ fun _ => 0))
  simp only [hmmWeight, tab, tabE, tabI, T₀, E₀, I₀]
  simp

/-- `inference` says for this case: going from state 1 to state 0 has marginal 0 and `partition` is close to the log-probability of the observations. -/
example : ∃ p vs μ, LinearChain.hmm 2 2 (fun i j => logOrBot (T₀ i j)) (fun v c => logOrBot (E₀ v c)) (fun c => logOrBot (I₀ c)) x₀ = .ok p ∧
    Dist.partitionE LinearChain.algo (some [3, 2]) p = .ok vs ∧ ChainBackward.marginals Slope.plain (-100000) p (some [3, 2]) = .ok μ ∧ μ [0, 1, 0, 1] = IEEE.ofReal 0 ∧
    ∃ v : ℝ, vs[0]? = some (v : EReal) ∧ v - Real.log (hmmProb (tab 2 T₀) (tabE 2 2 E₀) (tabI 2 I₀) ![0, 1, 0]) ≤ gap 3 2 2 (Real.log 2) := by
  obtain ⟨p, vs, μ, h1, h2, h3, h4⟩ := inference (lengths := some [3, 2]) (Or.inl rfl) bounded₀.tables (by simp [x₀]) symbols₀ (by norm_num) lens₀
  obtain ⟨v, hv, h5⟩ := h4 0 (by simp [x₀]) 2 (by norm_num) rfl ![0, 1, 0] (by intro n; fin_cases n <;> simp [x₀])
  obtain ⟨q, hq, -, -, hz, hp⟩ := h5 1 (by simp [x₀]) 0 1
  refine ⟨p, vs, μ, h1, h2, h3, ?_, v, hv, (hp (pos₀ _)).2 _ (Real.log_nonneg (by norm_num)) bounded₀⟩
  rw [← hz (by norm_num) (Or.inl (by simp [tab, T₀]))]
  exact hq

/-- `viterbi` applies too. -/
example : 8 * ((x₀.d1 - 1 : ℕ) : ℝ) * Real.log 2 < 100000 := by
  have : Real.log 2 ≤ 2 - 1 := Real.log_le_sub_one_of_pos (by norm_num)
  simp only [x₀]; norm_num; linarith

/-- `entropy_nan` says for this case: both rows are NaN. -/
example : ∃ p vs, LinearChain.hmm 2 2 (fun i j => logOrBot (T₀ i j)) (fun v c => logOrBot (E₀ v c)) (fun c => logOrBot (I₀ c)) x₀ = .ok p ∧
    Dist.entropyE LinearChain.algo p (some [3, 2]) = .ok vs ∧ vs[0]? = some IEEE.nan ∧ vs[1]? = some IEEE.nan := by
  obtain ⟨p, vs, h1, h2, -, h3⟩ := entropy_nan (T := T₀) (E := E₀) (I := I₀) (lengths := some [3, 2]) (by simp [x₀]) symbols₀ (C := 2) (by norm_num) lens₀
  refine ⟨p, vs, h1, h2, h3 0 (by simp [x₀]) 2 rfl ![0, 1, 0] (by intro n; fin_cases n <;> simp [x₀]) ⟨0, 0, 1, Or.inl (by simp [tab, T₀])⟩,
    h3 1 (by simp [x₀]) 1 rfl ![1, 1] (by intro n; fin_cases n <;> simp [x₀]) ⟨0, 0, 1, Or.inl (by simp [tab, T₀])⟩⟩

end Props.HMMZero
