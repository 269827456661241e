import Verif.Spec.HSMMZero
import Verif.Props.HMMZero
import Verif.Props.SemiMarkovEvents

/-! C127: `SemiMarkov.hsmm` with probability tables that have zeros, under `SemiMarkovCRF`. -/

open Finset Spec
open Props.ChainInfinity (Formula)
open Props.Conditional (SegAvoids)
open Props.SemiInfinity (forbid5 weight allowed share allowed_eq segSum_share Within)
open Props.InfArgmax (Pick)
open Props.HMMZero (lg_mul)
open Autograd (IsArgmaxE)
open SemiMarkovProofs (segParts segEdges_mem)

noncomputable section
namespace Props.HSMMZero
open Props.SemiMarkov (Valid Seg row steps)

/-- The probability tables: no entry is negative. -/
structure Tables (I : ℕ → ℕ → ℝ) (T D : ℕ → ℕ → ℝ) (E : T4 ℝ) : Prop where
  init : ∀ b < E.d0, ∀ c < E.d3, 0 ≤ I b c
  transition : ∀ c < E.d3, ∀ c' < E.d3, 0 ≤ T c c'
  duration : ∀ c < E.d3, ∀ k < E.d2, 0 ≤ D c k
  emission : ∀ b < E.d0, ∀ n < E.d1, ∀ k < E.d2, ∀ c < E.d3, 0 ≤ E.get b n k c

/-- The entries of the tables that are not 0 are between `exp (-B)` and 1. -/
structure Bounded (I : ℕ → ℕ → ℝ) (T D : ℕ → ℕ → ℝ) (E : T4 ℝ) (B : ℝ) : Prop where
  init : ∀ b < E.d0, ∀ c < E.d3, I b c = 0 ∨ Real.exp (-B) ≤ I b c ∧ I b c ≤ 1
  transition : ∀ c < E.d3, ∀ c' < E.d3, T c c' = 0 ∨ Real.exp (-B) ≤ T c c' ∧ T c c' ≤ 1
  duration : ∀ c < E.d3, ∀ k < E.d2, D c k = 0 ∨ Real.exp (-B) ≤ D c k ∧ D c k ≤ 1
  emission : ∀ b < E.d0, ∀ n < E.d1, ∀ k < E.d2, ∀ c < E.d3, E.get b n k c = 0 ∨ Real.exp (-B) ≤ E.get b n k c ∧ E.get b n k c ≤ 1

/-- The table of log-probabilities. -/
def logs (E : T4 ℝ) : T4 EReal := ⟨E.d0, E.d1, E.d2, E.d3, fun b n k c => logOrBot (E.get b n k c)⟩

variable {I : ℕ → ℕ → ℝ} {T D : ℕ → ℕ → ℝ} {E : T4 ℝ} {B : ℝ} {lengths : Option (List ℕ)}

theorem Bounded.tables (h : Bounded I T D E B) : Tables I T D E where
  init := fun b hb c hc => (h.init b hb c hc).elim (fun h => h.ge) fun h => (Real.exp_pos _).le.trans h.1
  transition := fun i hi j hj => (h.transition i hi j hj).elim (fun h => h.ge) fun h => (Real.exp_pos _).le.trans h.1
  duration := fun i hi j hj => (h.duration i hi j hj).elim (fun h => h.ge) fun h => (Real.exp_pos _).le.trans h.1
  emission := fun b hb n hn k hk c hc => (h.emission b hb n hn k hk c hc).elim (fun h => h.ge) fun h => (Real.exp_pos _).le.trans h.1

/-- The factors that `hsmm` puts on one segment. -/
def cell (I : ℕ → ℕ → ℝ) (T D : ℕ → ℕ → ℝ) (E : T4 ℝ) (b n k c c' : ℕ) : ℝ := (if n = 0 then I b c' else 1) * T c' c * D c k * E.get b n k c

def pot (I : ℕ → ℕ → ℝ) (T D : ℕ → ℕ → ℝ) (E : T4 ℝ) : T5 ℝ := ⟨E.d0, E.d1, E.d2, E.d3, E.d3, fun b n k c c' => Real.log (cell I T D E b n k c c')⟩

def zeros (I : ℕ → ℕ → ℝ) (T D : ℕ → ℕ → ℝ) (E : T4 ℝ) : ℕ → ℕ → ℕ → ℕ → ℕ → Prop := fun b n k c c' => cell I T D E b n k c c' = 0

theorem hsmm_eq (I : ℕ → ℕ → ℝ) (T D : ℕ → ℕ → ℝ) (E : T4 ℝ) (hN : 1 ≤ E.d1) :
    SemiMarkov.hsmm (fun b c => logOrBot (I b c)) (fun c c' => logOrBot (T c c')) (fun c k => logOrBot (D c k)) (logs E) =
      .ok (forbid5 (pot I T D E) (zeros I T D E)) := by
  unfold SemiMarkov.hsmm
  rw [if_neg (by simp only [logs]; omega)]
  congr 1
  have : forbid5 (pot I T D E) (zeros I T D E) = ⟨E.d0, E.d1, E.d2, E.d3, E.d3, fun b n k c c' => logOrBot (cell I T D E b n k c c')⟩ := by
    have e : (forbid5 (pot I T D E) (zeros I T D E)).get = fun b n k c c' => logOrBot (cell I T D E b n k c c') := by
      funext b n k c c'
      by_cases h : cell I T D E b n k c c' = 0 <;> simp [forbid5, pot, zeros, logOrBot, h]
    rw [← e]; rfl
  rw [this]
  simp only [logs]
  congr 2
  funext b n k c c'
  unfold cell
  by_cases hn : n = 0
  · simp only [hn, if_true, lg_mul, zero_add]
  · simp only [hn, if_false, one_mul, lg_mul, zero_add]

theorem cell_zero (b n k c c' : ℕ) : cell I T D E b n k c c' = 0 ↔ hsmmImpossible (I b) T D (fun n k c => E.get b n k c) n k c c' := by
  unfold cell hsmmImpossible
  by_cases hn : n = 0
  · simp only [hn, if_true, mul_eq_zero, true_and]; tauto
  · simp only [hn, if_false, one_mul, mul_eq_zero, false_and, or_false]; tauto

theorem valid (hR : 1 ≤ E.d0) (hN : 1 ≤ E.d1) (hK : 2 ≤ E.d2) (hC : 1 ≤ E.d3) (hlen : ValidLengths E.d0 (E.d1 + 1) lengths) : Valid (pot I T D E) lengths :=
  ⟨hR, rfl, hC, hN, hK, hlen⟩

theorem cell_nonneg (hT : Tables I T D E) {b n k c c' : ℕ} (hb : b < E.d0) (hn : n < E.d1) (hk : k < E.d2) (hc : c < E.d3) (hc' : c' < E.d3) :
    0 ≤ cell I T D E b n k c c' := by
  have h1 := hT.init b hb c' hc'
  have h2 := hT.transition c' hc' c hc
  have h3 := hT.duration c hc k hk
  have h4 := hT.emission b hb n hn k hk c hc
  unfold cell
  split_ifs <;> positivity

theorem cell_within (hB0 : 0 ≤ B) (hB : Bounded I T D E B) {b n k c c' : ℕ} (hb : b < E.d0) (hn : n < E.d1) (hk : k < E.d2) (hc : c < E.d3) (hc' : c' < E.d3) :
    |Real.log (cell I T D E b n k c c')| ≤ 4 * B := by
  by_cases h0 : cell I T D E b n k c c' = 0
  · rw [h0, Real.log_zero, abs_zero]; linarith
  have key : ∀ a : ℝ, a = 0 ∨ Real.exp (-B) ≤ a ∧ a ≤ 1 → a ≠ 0 → -B ≤ Real.log a ∧ Real.log a ≤ 0 := by
    rintro a (h | h) h0
    · exact absurd h h0
    · have ha := (Real.exp_pos (-B)).trans_le h.1
      exact ⟨(Real.le_log_iff_exp_le ha).2 h.1, Real.log_nonpos ha.le h.2⟩
  unfold cell at h0 ⊢
  have h1 : (if n = 0 then I b c' else 1) = 0 ∨ Real.exp (-B) ≤ (if n = 0 then I b c' else 1) ∧ (if n = 0 then I b c' else 1) ≤ 1 := by
    split_ifs
    · exact hB.init b hb c' hc'
    · right; exact ⟨by simpa using hB0, le_rfl⟩
  have h2 := hB.transition c' hc' c hc
  have h3 := hB.duration c hc k hk
  have h4 := hB.emission b hb n hn k hk c hc
  generalize (if n = 0 then I b c' else 1) = a at *
  obtain ⟨k123, k4⟩ := mul_ne_zero_iff.1 h0
  obtain ⟨k12, k3⟩ := mul_ne_zero_iff.1 k123
  obtain ⟨k1, k2⟩ := mul_ne_zero_iff.1 k12
  rw [Real.log_mul k123 k4, Real.log_mul k12 k3, Real.log_mul k1 k2, abs_le]
  have := key _ h1 k1
  have := key _ h2 k2
  have := key _ h3 k3
  have := key _ h4 k4
  constructor <;> linarith

theorem prod_cell {L : ℕ} (hL : 1 ≤ L) (b : ℕ) (y : Segmentation E.d2 E.d3 L) :
    ((segEdges 0 y.1 y.2.1).map fun s => cell I T D E b s.1 s.2.1 s.2.2.1 s.2.2.2).prod = hsmmWeight (I b) T D (fun n k c => E.get b n k c) y := by
  obtain ⟨c0, l, h1, h2⟩ := y
  cases l with
  | nil => simp at h2; omega
  | cons s l =>
    have hs := h1 s List.mem_cons_self
    have hl : ∀ x ∈ segEdges (0 + s.1) s.2 l, x.1 ≠ 0 := by
      intro x hx
      have := (segEdges_mem l (0 + s.1) s.2 (fun t ht => h1 t (List.mem_cons_of_mem _ ht)) x hx).1
      omega
    simp only [hsmmWeight, segEdges, List.map_cons, List.prod_cons]
    have e : ((segEdges (0 + s.1) s.2 l).map fun s => cell I T D E b s.1 s.2.1 s.2.2.1 s.2.2.2) =
        (segEdges (0 + s.1) s.2 l).map fun s => T s.2.2.2 s.2.2.1 * D s.2.2.1 s.2.1 * E.get b s.1 s.2.1 s.2.2.1 := by
      refine List.map_congr_left fun x hx => ?_
      rw [cell, if_neg (hl x hx), one_mul]
    rw [e, cell, if_pos rfl]
    ring

theorem edges_in {L : ℕ} (hL : L ≤ E.d1) (y : Segmentation E.d2 E.d3 L) {s : ℕ × ℕ × Fin E.d3 × Fin E.d3} (hs : s ∈ segEdges 0 y.1 y.2.1) : s.1 < E.d1 ∧ s.2.1 < E.d2 := by
  have := segEdges_mem y.2.1 0 y.1 y.2.2.1 s hs
  have := y.2.2.2
  omega

theorem parts_weight (hT : Tables I T D E) {L b : ℕ} (hb : b < E.d0) (hL : 1 ≤ L) (hLN : L ≤ E.d1) (y : Segmentation E.d2 E.d3 L) :
    ((segParts b y).map (weight (pot I T D E) (zeros I T D E))).prod = hsmmWeight (I b) T D (fun n k c => E.get b n k c) y := by
  rw [segParts, Multiset.map_coe, Multiset.prod_coe, List.map_map, ← prod_cell hL]
  congr 1
  refine List.map_congr_left fun s hs => ?_
  obtain ⟨h1, h2⟩ := edges_in hLN y hs
  have h0 := cell_nonneg hT hb h1 h2 s.2.2.1.2 s.2.2.2.2
  change weight (pot I T D E) (zeros I T D E) [b, s.1, s.2.1, s.2.2.1, s.2.2.2] = _
  rw [weight]
  change (if cell I T D E b s.1 s.2.1 s.2.2.1 s.2.2.2 = 0 then (0 : ℝ) else Real.exp (Real.log (cell I T D E b s.1 s.2.1 s.2.2.1 s.2.2.2))) = _
  split_ifs with h
  · exact h.symm
  · exact Real.exp_log (lt_of_le_of_ne h0 (Ne.symm h))

theorem avoid_iff {L b : ℕ} (hL : 1 ≤ L) (y : Segmentation E.d2 E.d3 L) :
    SegAvoids (zeros I T D E b) y ↔ hsmmWeight (I b) T D (fun n k c => E.get b n k c) y ≠ 0 := by
  rw [← prod_cell hL, Ne, List.prod_eq_zero_iff, SegAvoids, List.mem_map]
  push Not
  rfl

theorem weight_nonneg (hT : Tables I T D E) {L b : ℕ} (hb : b < E.d0) (hL : 1 ≤ L) (hLN : L ≤ E.d1) (y : Segmentation E.d2 E.d3 L) :
    0 ≤ hsmmWeight (I b) T D (fun n k c => E.get b n k c) y := by
  rw [← prod_cell hL]
  refine List.prod_nonneg fun a ha => ?_
  obtain ⟨s, hs, rfl⟩ := List.mem_map.1 ha
  obtain ⟨h1, h2⟩ := edges_in hLN y hs
  exact cell_nonneg hT hb h1 h2 s.2.2.1.2 s.2.2.2.2

/-- How far the stand-in `-1e5` for `log 0` can move the results: `N` observations, `K - 1` the longest segment, `C` classes, `L` observations in the row, probabilities
at least `exp (-B)`. -/
def gap (N K C L : ℕ) (B : ℝ) : ℝ :=
  let M := 2 ^ Nat.clog 2 N
  (C ^ 2 * (((K - 1) * C) ^ (M + 1) * 2 ^ M) : ℕ) * Real.exp (2 * L * (4 * B) + -100000)

/-- **C127.** With zeros in the tables, `partition` of a row with at least one observation is a finite number, even for observations of probability 0, and `marginals` is
never NaN and is 0 at every impossible segment.  If the observations have positive probability, `marginals` is the posterior and `partition` the log-probability of the
observations, up to `gap`. -/
theorem inference {σ : Slope} (hσ : Formula σ) (hT : Tables I T D E) (hR : 1 ≤ E.d0) (hN : 1 ≤ E.d1) (hK : 2 ≤ E.d2) (hC : 1 ≤ E.d3)
    (hlen : ValidLengths E.d0 (E.d1 + 1) lengths) :
    ∃ p vs μ, SemiMarkov.hsmm (fun b c => logOrBot (I b c)) (fun c c' => logOrBot (T c c')) (fun c k => logOrBot (D c k)) (logs E) = .ok p ∧
      Dist.partitionE SemiMarkov.algo lengths p = .ok vs ∧ SemiBackward.marginals σ (-100000) p lengths = .ok μ ∧
      ∀ b < E.d0, ∀ L, 1 ≤ L → lenOf (E.d1 + 1) lengths b = L + 1 → ∃ v : ℝ, vs[b]? = some (v : EReal) ∧
        ∀ n < E.d1, ∀ k < E.d2, ∀ c c' : Fin E.d3, ∃ q : ℝ, μ [b, n, k, (c : ℕ), (c' : ℕ)] = IEEE.ofReal q ∧ 0 ≤ q ∧ q ≤ 1 ∧
          (n < L → hsmmImpossible (I b) T D (fun n k c => E.get b n k c) n k c c' → q = 0) ∧
          (0 < hsmmProb E.d2 E.d3 L (I b) T D (fun n k c => E.get b n k c) →
            |q - hsmmSegProb E.d2 E.d3 L (I b) T D (fun n k c => E.get b n k c) n k c c'| ≤
              v - Real.log (hsmmProb E.d2 E.d3 L (I b) T D (fun n k c => E.get b n k c)) ∧
            ∀ B, 0 ≤ B → Bounded I T D E B → v - Real.log (hsmmProb E.d2 E.d3 L (I b) T D (fun n k c => E.get b n k c)) ≤ gap E.d1 E.d2 E.d3 L B) := by
  have hv := valid (I := I) (T := T) (D := D) hR hN hK hC hlen
  obtain ⟨vs, μ, h1, h2, h3⟩ := SemiInfinity.spec hσ (pot I T D E) lengths hv (zeros I T D E)
  refine ⟨_, vs, μ, hsmm_eq I T D E hN, h1, h2, fun b hb L hL hLl => ?_⟩
  obtain rfl : L = steps (pot I T D E) lengths b := by simp only [steps, pot]; omega
  have hLN : steps (pot I T D E) lengths b ≤ E.d1 := (SemiMarkovProofs.steps_le hv b).1
  obtain ⟨v, hv', h4⟩ := h3 b hb
  refine ⟨v, hv', fun n hn k hk c c' => ?_⟩
  obtain ⟨q, hq, q0, q1, hz, hA⟩ := h4 n hn k hk c c'
  refine ⟨q, hq, q0, q1, fun h hi => hz h ((cell_zero _ _ _ _ _).2 hi), fun hpos => ?_⟩
  have hK1 : 1 ≤ E.d2 := by omega
  have hsum : allowed (pot I T D E) lengths (zeros I T D E) b = hsmmProb E.d2 E.d3 (steps (pot I T D E) lengths b) (I b) T D (fun n k c => E.get b n k c) := by
    rw [← allowed_eq hv b]
    refine (SemiInfinity.segSum_eq (K := E.d2) hK1 _).trans ?_
    exact sum_congr rfl fun y _ => parts_weight hT hb hL hLN y
  have hex : ∃ y : Seg (pot I T D E) lengths b, SegAvoids (zeros I T D E b) y := by
    by_contra hno
    push Not at hno
    refine hpos.ne' (sum_eq_zero fun y _ => ?_)
    by_contra h0
    exact hno y ((avoid_iff hL y).2 h0)
  obtain ⟨h5, h6⟩ := hA hex
  have hedge : Gibbs.condProb (segScore (row (pot I T D E) b) : Seg (pot I T D E) lengths b → ℝ) (SegAvoids (zeros I T D E b)) (fun y => (n, k, c, c') ∈ segEdges 0 y.1 y.2.1) =
      hsmmSegProb E.d2 E.d3 (steps (pot I T D E) lengths b) (I b) T D (fun n k c => E.get b n k c) n k c c' := by
    classical
    refine (share (p := pot I T D E) (F := zeros I T D E) hv b n k c c').symm.trans ?_
    rw [hsum, hsmmSegProb]
    congr 1
    refine (segSum_share (K := E.d2) hK1 _ _).trans (sum_congr rfl fun y _ => ?_)
    have hm : [b, n, k, (c : ℕ), (c' : ℕ)] ∈ segParts b y ↔ (n, k, c, c') ∈ segEdges 0 y.1 y.2.1 := SemiMarkov.mem_parts b y n k c c'
    have := parts_weight hT hb hL hLN y
    by_cases h : (n, k, c, c') ∈ segEdges 0 y.1 y.2.1
    · exact (if_pos (hm.2 h)).trans (this.trans (if_pos h).symm)
    · exact (if_neg (mt hm.1 h)).trans (if_neg h).symm
  rw [hsum] at h5 h6
  refine ⟨le_of_eq_of_le (congrArg (fun a => |q - a|) hedge.symm) h5, fun B hB0 hB => h6 (4 * B) (by linarith) ?_⟩
  intro n k hn _ hk i j _
  exact cell_within hB0 hB hb (by omega) hk i.2 j.2

/-- **C127.** `argmax` is a segmentation of the largest posterior probability and `max` the logarithm of its joint probability with the observations, if there is one of positive
probability and `8 N B < 1e5`, where `exp (-B)` is the smallest positive entry of the tables. -/
theorem viterbi (hB0 : 0 ≤ B) (hB : Bounded I T D E B) (hR : 1 ≤ E.d0) (hN : 1 ≤ E.d1) (hK : 2 ≤ E.d2) (hC : 1 ≤ E.d3)
    (hlen : ValidLengths E.d0 (E.d1 + 1) lengths) (hsmall : 8 * (E.d1 : ℝ) * B < 100000) {pick : Pick} (hp : IsArgmaxE Prod.fst pick) :
    ∃ p μ vs, SemiMarkov.hsmm (fun b c => logOrBot (I b c)) (fun c c' => logOrBot (T c c')) (fun c k => logOrBot (D c k)) (logs E) = .ok p ∧
      Dist.argmaxE SemiMarkov.algo p lengths pick = .ok μ ∧ Dist.maxE SemiMarkov.algo p lengths = .ok vs ∧ vs.length = E.d0 ∧
      ∀ b (hb : b < vs.length), ∀ L, 1 ≤ L → lenOf (E.d1 + 1) lengths b = L + 1 → 0 < hsmmProb E.d2 E.d3 L (I b) T D (fun n k c => E.get b n k c) →
        ∃ y : Segmentation E.d2 E.d3 L, 0 < hsmmWeight (I b) T D (fun n k c => E.get b n k c) y ∧
          vs[b] = (Real.log (hsmmWeight (I b) T D (fun n k c => E.get b n k c) y) : ℝ) ∧
          (∀ y' : Segmentation E.d2 E.d3 L, hsmmWeight (I b) T D (fun n k c => E.get b n k c) y' ≤ hsmmWeight (I b) T D (fun n k c => E.get b n k c) y) ∧
          ∀ n k (c c' : Fin E.d3), μ [b, n, k, (c : ℕ), (c' : ℕ)] = if (n, k, c, c') ∈ segEdges 0 y.1 y.2.1 then 1 else 0 := by
  have hT := hB.tables
  have hv := valid (I := I) (T := T) (D := D) hR hN hK hC hlen
  have hbd : SemiMarkov.Bounded (pot I T D E) lengths (4 * B) := by
    refine ⟨by linarith, fun b hb n k c c' hn _ hk hc hc' => ?_⟩
    have : steps (pot I T D E) lengths b ≤ E.d1 := (SemiMarkovProofs.steps_le hv b).1
    exact cell_within hB0 hB hb (by omega) hk hc hc'
  obtain ⟨μ, vs, h1, h2, h3, h4⟩ := InfArgmax.semi_spec (pot I T D E) lengths hv hbd (by simp only [pot]; linarith) (zeros I T D E) hp
  refine ⟨_, μ, vs, hsmm_eq I T D E hN, h1, h2, h3, fun b hb L hL hLl hpos => ?_⟩
  have hb' : b < E.d0 := by have : vs.length = E.d0 := h3; omega
  obtain rfl : L = steps (pot I T D E) lengths b := by simp only [steps, pot]; omega
  have hLN : steps (pot I T D E) lengths b ≤ E.d1 := (SemiMarkovProofs.steps_le hv b).1
  have hex : ∃ y : Seg (pot I T D E) lengths b, SegAvoids (zeros I T D E b) y := by
    by_contra hno
    push Not at hno
    refine hpos.ne' (sum_eq_zero fun y _ => ?_)
    by_contra h0
    exact hno y ((avoid_iff hL y).2 h0)
  have hexp : ∀ y : Seg (pot I T D E) lengths b, SegAvoids (zeros I T D E b) y →
      Real.exp (segScore (row (pot I T D E) b) y) = hsmmWeight (I b) T D (fun n k c => E.get b n k c) y := by
    classical
    intro y hy
    have := SemiInfinity.seg_weight (p := pot I T D E) (F := zeros I T D E) b y
    exact ((parts_weight hT hb' hL hLN y).symm.trans (this.trans (if_pos hy))).symm
  obtain ⟨y, hy, g1, g2, g3⟩ := h4 b hb hex
  refine ⟨y, ?_, ?_, fun y' => ?_, g3⟩
  · exact lt_of_lt_of_eq (Real.exp_pos _) (hexp y hy)
  · exact g1.trans (congrArg Real.toEReal ((Real.log_exp _).symm.trans (congrArg Real.log (hexp y hy))))
  · by_cases h0 : SegAvoids (zeros I T D E b) y'
    · exact le_of_eq_of_le (hexp y' h0).symm (le_of_le_of_eq (Real.exp_le_exp.2 (g2 y' h0)) (hexp y hy))
    · have : hsmmWeight (I b) T D (fun n k c => E.get b n k c) y' = 0 := by
        by_contra h1; exact h0 ((avoid_iff hL y').2 h1)
      rw [this]; exact weight_nonneg hT hb' hL hLN y

/-- **C127.** `sample` does not raise and never draws an impossible segment. -/
theorem sampling (hR : 1 ≤ E.d0) (hN : 1 ≤ E.d1) (hK : 2 ≤ E.d2) (hC : 1 ≤ E.d3) (hlen : ValidLengths E.d0 (E.d1 + 1) lengths) :
    ∃ p U, SemiMarkov.hsmm (fun b c => logOrBot (I b c)) (fun c c' => logOrBot (T c c')) (fun c k => logOrBot (D c k)) (logs E) = .ok p ∧
      SemiMarkov.sampleE p lengths = .ok U ∧ U.length = E.d0 ∧ ∀ b (hb : b < U.length), U[b].Nonempty ∧
      ∀ u ∈ U[b], ∀ n < lenOf (E.d1 + 1) lengths b - 1, ∀ k c c', hsmmImpossible (I b) T D (fun n k c => E.get b n k c) n k c c' → u [b, n, k, c, c'] = 0 := by
  obtain ⟨U, h1, h2, h3⟩ := InfSample.semi_spec (pot I T D E) lengths (valid hR hN hK hC hlen) (zeros I T D E)
  exact ⟨_, U, hsmm_eq I T D E hN, h1, h2, fun b hb => ⟨(h3 b hb).1, fun u hu n hn k c c' hi => (h3 b hb).2 u hu n hn k c c' ((cell_zero _ _ _ _ _).2 hi)⟩⟩

/-- **C127.** `entropy` is NaN for every row that has both a segmentation of probability 0 and one of positive probability, although the posterior has an entropy. -/
theorem entropy_nan (hR : 1 ≤ E.d0) (hN : 1 ≤ E.d1) (hK : 2 ≤ E.d2) (hC : 1 ≤ E.d3) (hlen : ValidLengths E.d0 (E.d1 + 1) lengths) :
    ∃ p vs, SemiMarkov.hsmm (fun b c => logOrBot (I b c)) (fun c c' => logOrBot (T c c')) (fun c k => logOrBot (D c k)) (logs E) = .ok p ∧
      Dist.entropyE SemiMarkov.algo p lengths = .ok vs ∧ vs.length = E.d0 ∧
      ∀ b < E.d0, ∀ L, 1 ≤ L → lenOf (E.d1 + 1) lengths b = L + 1 →
        (∃ y : Segmentation E.d2 E.d3 L, hsmmWeight (I b) T D (fun n k c => E.get b n k c) y = 0) →
        (∃ y : Segmentation E.d2 E.d3 L, hsmmWeight (I b) T D (fun n k c => E.get b n k c) y ≠ 0) → vs[b]? = some IEEE.nan := by
  obtain ⟨vs, us, h1, -, h2, -, h3⟩ := InfEntropy.semi_entropy (pot I T D E) lengths (valid hR hN hK hC hlen) (zeros I T D E)
  refine ⟨_, vs, hsmm_eq I T D E hN, h1, h2, fun b hb L hL hLl ⟨y, hy⟩ ⟨y', hy'⟩ => ?_⟩
  obtain rfl : L = steps (pot I T D E) lengths b := by simp only [steps, pot]; omega
  exact (h3 b hb).1 ⟨⟨y, fun h => (avoid_iff hL y).1 h hy⟩, y', (avoid_iff hL y').2 hy'⟩

/-! A concrete case: two classes that alternate (no transition from a class to itself), segments of length 1 and 2, two rows of 3 and 2 observations. -/

def I₀ : ℕ → ℕ → ℝ := fun _ _ => 1 / 2
def T₀ : ℕ → ℕ → ℝ := fun c c' => if c = c' then 0 else 1
def D₀ : ℕ → ℕ → ℝ := fun _ k => if k = 0 then 0 else 1 / 2
def E₀ : T4 ℝ := ⟨2, 3, 3, 2, fun _ _ _ _ => 1 / 2⟩

theorem bounded₀ : Bounded I₀ T₀ D₀ E₀ (Real.log 2) := by
  have e : Real.exp (-Real.log 2) = 1 / 2 := by rw [Real.exp_neg, Real.exp_log (by norm_num)]; norm_num
  constructor
  · intro b _ c _; rw [e]; unfold I₀; norm_num
  · intro b _ c _; rw [e]; unfold T₀; split_ifs <;> norm_num
  · intro b _ c _; rw [e]; unfold D₀; split_ifs <;> norm_num
  · intros; rw [e]; unfold E₀; norm_num

theorem lens₀ : ValidLengths E₀.d0 (E₀.d1 + 1) (some [4, 3]) := by
  refine ⟨rfl, ?_, ?_⟩ <;> simp [E₀]

/-- Class 0 first, then a segment of length 2 of class 1 and one of length 1 of class 0: probability `1/64`. -/
def good₀ : Segmentation E₀.d2 E₀.d3 3 := ((0 : Fin 2), ⟨[(2, (1 : Fin 2)), (1, (0 : Fin 2))], by
  refine ⟨fun s hs => ?_, rfl⟩
  simp only [List.mem_cons, List.not_mem_nil, or_false] at hs
  rcases hs with rfl | rfl <;> simp [E₀]⟩)

theorem good_weight : 0 < hsmmWeight (I₀ 0) T₀ D₀ (fun n k c => E₀.get 0 n k c) good₀ := by
  simp [hsmmWeight, good₀, segEdges, I₀, T₀, D₀, E₀]

/-- Class 0 first, then a segment of class 0: impossible. -/
def bad₀ : Segmentation E₀.d2 E₀.d3 3 := ((0 : Fin 2), ⟨[(2, (0 : Fin 2)), (1, (0 : Fin 2))], by
  refine ⟨fun s hs => ?_, rfl⟩
  simp only [List.mem_cons, List.not_mem_nil, or_false] at hs
  rcases hs with rfl | rfl <;> simp [E₀]⟩)

theorem bad_weight : hsmmWeight (I₀ 0) T₀ D₀ (fun n k c => E₀.get 0 n k c) bad₀ = 0 := by
  simp [hsmmWeight, bad₀, segEdges, T₀]

/-- `inference` says for this case: staying in class 0 has marginal 0 and `partition` is close to the log-probability of the observations. -/
example : ∃ p vs μ, SemiMarkov.hsmm (fun b c => logOrBot (I₀ b c)) (fun c c' => logOrBot (T₀ c c')) (fun c k => logOrBot (D₀ c k)) (logs E₀) = .ok p ∧
    Dist.partitionE SemiMarkov.algo (some [4, 3]) p = .ok vs ∧ SemiBackward.marginals Slope.plain (-100000) p (some [4, 3]) = .ok μ ∧ μ [0, 1, 2, 0, 0] = IEEE.ofReal 0 ∧
    ∃ v : ℝ, vs[0]? = some (v : EReal) ∧ v - Real.log (hsmmProb 3 2 3 (I₀ 0) T₀ D₀ (fun n k c => E₀.get 0 n k c)) ≤ gap 3 3 2 3 (Real.log 2) := by
  obtain ⟨p, vs, μ, h1, h2, h3, h4⟩ := inference (lengths := some [4, 3]) (Or.inl rfl) bounded₀.tables (by simp [E₀]) (by simp [E₀]) (by simp [E₀]) (by simp [E₀]) lens₀
  obtain ⟨v, hv, h5⟩ := h4 0 (by simp [E₀]) 3 (by norm_num) rfl
  obtain ⟨q, hq, -, -, hz, hp⟩ := h5 1 (by simp [E₀]) 2 (by simp [E₀]) (0 : Fin 2) (0 : Fin 2)
  have hpos : 0 < hsmmProb E₀.d2 E₀.d3 3 (I₀ 0) T₀ D₀ (fun n k c => E₀.get 0 n k c) :=
    lt_of_lt_of_le good_weight (single_le_sum (fun y _ => weight_nonneg bounded₀.tables (by simp [E₀]) (by norm_num) (by simp [E₀]) y) (mem_univ good₀))
  refine ⟨p, vs, μ, h1, h2, h3, ?_, v, hv, (hp hpos).2 _ (Real.log_nonneg (by norm_num)) bounded₀⟩
  rw [← hz (by norm_num) (Or.inl (by simp [T₀]))]
  exact hq

/-- `viterbi` applies too. -/
example : 8 * (E₀.d1 : ℝ) * Real.log 2 < 100000 := by
  have : Real.log 2 ≤ 2 - 1 := Real.log_le_sub_one_of_pos (by norm_num)
  simp only [E₀]; norm_num; linarith

/-- `entropy_nan` says for this case: row 0 is NaN. -/
example : ∃ p vs, SemiMarkov.hsmm (fun b c => logOrBot (I₀ b c)) (fun c c' => logOrBot (T₀ c c')) (fun c k => logOrBot (D₀ c k)) (logs E₀) = .ok p ∧
    Dist.entropyE SemiMarkov.algo p (some [4, 3]) = .ok vs ∧ vs[0]? = some IEEE.nan := by
  obtain ⟨p, vs, h1, h2, -, h3⟩ := entropy_nan (I := I₀) (T := T₀) (D := D₀) (E := E₀) (lengths := some [4, 3]) (by simp [E₀]) (by simp [E₀]) (by simp [E₀]) (by simp [E₀]) lens₀
  exact ⟨p, vs, h1, h2, h3 0 (by simp [E₀]) 3 (by norm_num) rfl ⟨bad₀, bad_weight⟩ ⟨good₀, good_weight.ne'⟩⟩

end Props.HSMMZero
