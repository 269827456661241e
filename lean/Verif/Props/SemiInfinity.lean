import Verif.Proofs.SemiBackward
import Verif.Props.ChainInfinity

/-! C116: `SemiMarkovCRF.marginals` with potentials `-inf`.

Forbidden segments have potential `-inf`.  As for linear chains (C115) and unlike in trees (C113) the backward pass of torch never gives NaN: line 61 of
semimarkov.py adds `exp(-1e5)` to every potential, and the other entries of the chart are `one` or the stand-in `-1e5`. -/

open Finset Spec SemiBackwardProofs ChainBackwardProofs
open SemiMarkovProofs (at5 entry segParts checkPotentials_ok logpartition_ok lensOr_getD segEdges_mem)
open TreeBackwardProofs (LogOf)
open Props.Conditional (SegAvoids)
open Props.ChainInfinity (Formula)

noncomputable section
namespace Props.SemiInfinity
open Props.SemiMarkov (Valid Seg row hK)

open Classical in
/-- The potentials of the segments in `F` are `-inf`. -/
def forbid5 (p : T5 ℝ) (F : ℕ → ℕ → ℕ → ℕ → ℕ → Prop) : T5 EReal :=
  ⟨p.d0, p.d1, p.d2, p.d3, p.d4, fun b n k i j => if F b n k i j then ⊥ else (p.get b n k i j : EReal)⟩

variable {p : T5 ℝ} {lengths : Option (List ℕ)} {F : ℕ → ℕ → ℕ → ℕ → ℕ → Prop}

open Classical in
/-- The total weight of the segmentations of row `b` without forbidden segments. -/
def allowed (p : T5 ℝ) (lengths : Option (List ℕ)) (F : ℕ → ℕ → ℕ → ℕ → ℕ → Prop) (b : ℕ) : ℝ :=
  ∑ y : Seg p lengths b, if SegAvoids (F b) y then Real.exp (segScore (row p b) y) else 0

/-- How far the stand-in `z` for `log 0` can move the results of row `b` when the potentials that are not `-inf` are between `-B` and `B`. -/
def err (p : T5 ℝ) (lengths : Option (List ℕ)) (z B : ℝ) (b : ℕ) : ℝ :=
  let M := 2 ^ Nat.clog 2 p.d1
  (p.d3 ^ 2 * (((p.d2 - 1) * p.d3) ^ (M + 1) * 2 ^ M) : ℕ) * Real.exp (2 * SemiMarkov.steps p lengths b * B + z)

/-- The potentials of the segments that start inside row `b` and are not forbidden are between `-B` and `B`. -/
def Within (p : T5 ℝ) (lengths : Option (List ℕ)) (F : ℕ → ℕ → ℕ → ℕ → ℕ → Prop) (B : ℝ) (b : ℕ) : Prop :=
  ∀ n k, n < SemiMarkov.steps p lengths b → 1 ≤ k → k < p.d2 → ∀ i j : Fin p.d3, ¬ F b n k i j → |row p b n k i j| ≤ B

open Classical in
/-- The weights of the segments. -/
def weight (p : T5 ℝ) (F : ℕ → ℕ → ℕ → ℕ → ℕ → Prop) (e : List ℕ) : ℝ :=
  if F (e.getD 0 0) (e.getD 1 0) (e.getD 2 0) (e.getD 3 0) (e.getD 4 0) then 0 else Real.exp (at5 p e)

theorem weight_nonneg (e : List ℕ) : 0 ≤ weight p F e := by
  rw [weight]; split_ifs
  exacts [le_rfl, (Real.exp_pos _).le]

theorem weight_eq_zero {b n k i j : ℕ} : weight p F [b, n, k, i, j] = 0 ↔ F b n k i j := by
  classical
  rw [weight]
  change (if F b n k i j then _ else _) = _ ↔ _
  split_ifs with h
  · simp [h]
  · simp [h, Real.exp_ne_zero]

theorem weight_log (e : List ℕ) : LogOf (at5 (forbid5 p F) e) (weight p F e) := by
  refine ⟨weight_nonneg e, ?_⟩
  rw [weight, at5, forbid5]
  simp only
  split_ifs with h
  · simp
  · rw [EReal.exp_coe]; rfl

theorem seg_weight (b : ℕ) {K L : ℕ} (y : Segmentation K p.d3 L) [Decidable (SegAvoids (F b) y)] :
    ((segParts b y).map (weight p F)).prod = if SegAvoids (F b) y then Real.exp (segScore (row p b) y) else 0 := by
  rw [segParts, Multiset.map_coe, Multiset.prod_coe, List.map_map]
  split_ifs with h
  · rw [segScore, Real.exp_list_sum, List.map_map]
    congr 1
    refine List.map_congr_left fun s hs => ?_
    have := h s hs
    change weight p F [b, s.1, s.2.1, s.2.2.1, s.2.2.2] = Real.exp (p.get b s.1 s.2.1 s.2.2.1 s.2.2.2)
    rw [weight]
    exact if_neg this
  · simp only [SegAvoids, not_forall, not_not] at h
    obtain ⟨s, hs, hF⟩ := h
    exact List.prod_eq_zero (List.mem_map.2 ⟨s, hs, weight_eq_zero.2 hF⟩)

theorem segSum_eq {K C L b : ℕ} (hK : 1 ≤ K) (wp : List ℕ → ℝ) : segSum (K - 1) C L b wp = ∑ y : Segmentation K C L, ((segParts b y).map wp).prod := by
  obtain ⟨K1, rfl⟩ : ∃ K1, K = K1 + 1 := ⟨K - 1, by omega⟩
  rfl

open Classical in
theorem segSum_share {K C L b : ℕ} (hK : 1 ≤ K) (wp : List ℕ → ℝ) (e : List ℕ) : segSum (K - 1) C L b wp - segSum (K - 1) C L b (without e wp) =
    ∑ y : Segmentation K C L, if e ∈ segParts b y then ((segParts b y).map wp).prod else 0 := by
  obtain ⟨K1, rfl⟩ : ∃ K1, K = K1 + 1 := ⟨K - 1, by omega⟩
  exact segSum_without wp e

theorem allowed_eq (h : Valid p lengths) (b : ℕ) : segSum (p.d2 - 1) p.d3 (SemiMarkov.steps p lengths b) b (weight p F) = allowed p lengths F b := by
  classical
  have := h.segs
  rw [segSum_eq (by omega), allowed]
  exact sum_congr rfl fun y _ => by rw [seg_weight]

theorem allowed_pos {b : ℕ} (h : ∃ y : Seg p lengths b, SegAvoids (F b) y) : 0 < allowed p lengths F b := by
  classical
  obtain ⟨y, hy⟩ := h
  refine lt_of_lt_of_le (Real.exp_pos (segScore (row p b) y)) ?_
  have := single_le_sum (f := fun y : Seg p lengths b => if SegAvoids (F b) y then Real.exp (segScore (row p b) y) else 0)
    (fun y _ => by split_ifs <;> positivity) (mem_univ y)
  rw [if_pos hy] at this
  rw [allowed]
  convert this

theorem share (h : Valid p lengths) (b n k : ℕ) (i j : Fin p.d3) :
    (segSum (p.d2 - 1) p.d3 (SemiMarkov.steps p lengths b) b (weight p F) -
        segSum (p.d2 - 1) p.d3 (SemiMarkov.steps p lengths b) b (without [b, n, k, (i : ℕ), (j : ℕ)] (weight p F))) / allowed p lengths F b =
      Gibbs.condProb (segScore (row p b) : Seg p lengths b → ℝ) (SegAvoids (F b)) (fun y => (n, k, i, j) ∈ segEdges 0 y.1 y.2.1) := by
  classical
  have := h.segs
  have := SemiMarkov.seg_nonempty h b
  have hZ := Gibbs.Z_pos (segScore (row p b) : Seg p lengths b → ℝ)
  rw [segSum_share (by omega), allowed, Gibbs.condProb, Gibbs.probOf, Gibbs.probOf, ← mul_div_mul_right _ _ (inv_ne_zero hZ.ne'), sum_mul, sum_mul]
  congr 1
  · refine sum_congr rfl fun y _ => ?_
    have hm : [b, n, k, (i : ℕ), (j : ℕ)] ∈ segParts b y ↔ (n, k, i, j) ∈ segEdges 0 y.1 y.2.1 := SemiMarkov.mem_parts b y n k i j
    rw [seg_weight, Gibbs.prob]
    by_cases h1 : SegAvoids (F b) y <;> by_cases h2 : (n, k, i, j) ∈ segEdges 0 y.1 y.2.1 <;> simp [hm, h1, h2, div_eq_mul_inv]
  · refine sum_congr rfl fun y _ => ?_
    rw [Gibbs.prob]
    by_cases h1 : SegAvoids (F b) y <;> simp [h1, div_eq_mul_inv]

/-- The results in terms of weights. -/
theorem entries {σ : Slope} (hσ : Shares σ) (z : ℝ) (h : Valid p lengths) (F : ℕ → ℕ → ℕ → ℕ → ℕ → Prop) :
    ∃ vs μ, SemiMarkov.logpartition (Semirings.logE (z : EReal)) (forbid5 p F) lengths = .ok vs ∧
      SemiBackward.marginals σ z (forbid5 p F) lengths = .ok μ ∧ ∀ b < p.d0,
      let M := 2 ^ Nat.clog 2 p.d1
      let W := fun wp wm => pathSum ends M (cw (p.d2 - 1) p.d3 (p.d1 + 1) (SemiMarkov.steps p lengths b) b z wp wm)
      let wm : List ℕ → ℝ := fun _ => Real.exp z
      vs[b]? = some ((Real.log (W (weight p F) wm) : ℝ) : EReal) ∧ ∀ n < p.d1, ∀ k < p.d2, ∀ i j : Fin p.d3, μ [b, n, k, (i : ℕ), (j : ℕ)] =
        IEEE.ofReal (if k = 0 then 0 else (W (weight p F) wm - W (without [b, n, k, (i : ℕ), (j : ℕ)] (weight p F)) (without [b, n, k, (i : ℕ), (j : ℕ)] wm)) / W (weight p F) wm) := by
  have h' : SemiMarkovProofs.Valid (forbid5 p F) lengths := ⟨h.rows, h.square, h.classes, h.positions, h.segs, h.lens⟩
  have hK' : 0 < (forbid5 p F).d2 - 1 := hK h'
  have hok := logpartition_ok (ChainBackward.sr z) (forbid5 p F) lengths h' hK'
  have hd1 : (forbid5 p F).d1 ≠ 0 := by have := h.positions; change p.d1 ≠ 0; omega
  refine ⟨_, _, hok, by
    rw [SemiBackward.marginals, hok, checkPotentials_ok _ _ h']
    simp only [Struct.binLength, hd1, if_false, bind, Except.bind]
    rfl, fun b hb => ?_⟩
  intro M W wm
  have hlen : (LinearChain.lensOr p.d0 (p.d1 + 1) lengths).getD b 0 = lenOf (p.d1 + 1) lengths b := lensOr_getD lengths b hb
  have hle := LinearChainProofs.lenOf_le h.lens b
  have hM0 : 0 < M := by positivity
  have hclog : p.d1 ≤ M := Nat.le_pow_clog Nat.one_lt_two _
  have hpos : 0 < W (weight p F) wm := total_pos (hK h) h.classes hM0 z weight_nonneg fun _ => (Real.exp_pos z).le
  constructor
  · rw [List.getElem?_map, List.getElem?_range (by exact hb)]
    simp only [Option.map_some]
    congr 1
    refine logOf_value ?_ hpos
    have := core_logOf z (hK h) h.classes (N := p.d1 + 1) (logN := Nat.clog 2 p.d1) (lens := fun b => (LinearChain.lensOr p.d0 (p.d1 + 1) lengths).getD b 0) (b := b)
      (by simp only [hlen]; exact hle) (x := at5 (forbid5 p F)) (wp := weight p F) weight_log
    simp only [hlen] at this
    exact this
  · intro n hn k hk i j
    rcases Nat.eq_zero_or_pos k with rfl | hk0
    · rw [if_pos rfl, dif_neg fun hc => absurd hc.1 (by simp)]
    · rw [if_neg (by omega)]
      have hcond : (1 ≤ [b, n, k, (i : ℕ), (j : ℕ)].getD 2 0 ∧ [b, n, k, (i : ℕ), (j : ℕ)].getD 2 0 - 1 < (forbid5 p F).d2 - 1 ∧
          [b, n, k, (i : ℕ), (j : ℕ)].getD 3 0 < (forbid5 p F).d3 ∧ [b, n, k, (i : ℕ), (j : ℕ)].getD 4 0 < (forbid5 p F).d3) :=
        ⟨hk0, by change k - 1 < p.d2 - 1; omega, i.2, j.2⟩
      rw [dif_pos hcond]
      have := rowBack_eq hσ z (hK h) h.classes (N := p.d1 + 1) (logN := Nat.clog 2 p.d1) (by simpa using hclog)
        (lens := fun b => (LinearChain.lensOr p.d0 (p.d1 + 1) lengths).getD b 0) (b := b) (by simp only [hlen]; exact hle) (x := at5 (forbid5 p F))
        (wp := weight p F) weight_log (n := n) (by simpa using hn) ⟨k - 1, by omega⟩ i j
      simp only [hlen] at this
      have ek : k - 1 + 1 = k := by omega
      simp only [entry, ek] at this
      exact this

/-- What `partition` and `marginals` give, for either form of the backward formula of `logsumexp` and any stand-in `z`. -/
theorem specZ {σ : Slope} (hσ : Shares σ) (z : ℝ) (h : Valid p lengths) (F : ℕ → ℕ → ℕ → ℕ → ℕ → Prop) :
    ∃ vs μ, SemiMarkov.logpartition (Semirings.logE (z : EReal)) (forbid5 p F) lengths = .ok vs ∧
      SemiBackward.marginals σ z (forbid5 p F) lengths = .ok μ ∧ ∀ b < p.d0, ∃ v : ℝ, vs[b]? = some (v : EReal) ∧
      ∀ n < p.d1, ∀ k < p.d2, ∀ i j : Fin p.d3, ∃ q : ℝ, μ [b, n, k, (i : ℕ), (j : ℕ)] = IEEE.ofReal q ∧ 0 ≤ q ∧ q ≤ 1 ∧
        (n < SemiMarkov.steps p lengths b → F b n k i j → q = 0) ∧
        ((∃ y : Seg p lengths b, SegAvoids (F b) y) →
          |q - Gibbs.condProb (segScore (row p b) : Seg p lengths b → ℝ) (SegAvoids (F b)) (fun y => (n, k, i, j) ∈ segEdges 0 y.1 y.2.1)| ≤
            v - Real.log (allowed p lengths F b) ∧
          ∀ B, 0 ≤ B → z ≤ 0 → Within p lengths F B b → v - Real.log (allowed p lengths F b) ≤ err p lengths z B b) := by
  obtain ⟨vs, μ, h1, h2, h3⟩ := entries hσ z h F
  refine ⟨vs, μ, h1, h2, fun b hb => ?_⟩
  obtain ⟨h4, h5⟩ := h3 b hb
  have hs := h.segs
  have hst := SemiMarkovProofs.steps_le h b
  have hN : SemiMarkov.steps p lengths b ≤ p.d1 + 1 - 1 := hst.1
  have hM : SemiMarkov.steps p lengths b ≤ 2 ^ Nat.clog 2 p.d1 := hst.2
  have hwm : ∀ e : List ℕ, (0 : ℝ) ≤ (fun _ => Real.exp z) e := fun _ => (Real.exp_pos z).le
  have hM0 : 0 < 2 ^ Nat.clog 2 p.d1 := by positivity
  have hclog : p.d1 ≤ 2 ^ Nat.clog 2 p.d1 := Nat.le_pow_clog Nat.one_lt_two _
  have hpos := total_pos (N := p.d1 + 1) (L := SemiMarkov.steps p lengths b) (b := b) (hK h) h.classes hM0 z (weight_nonneg (p := p) (F := F)) hwm
  refine ⟨_, h4, fun n hn k hk i j => ⟨_, h5 n hn k hk i j, ?_⟩⟩
  have hmem := share_mem (hK h) hN hM z (weight_nonneg (p := p) (F := F)) hwm [b, n, k, (i : ℕ), (j : ℕ)] hpos
  refine ⟨?_, ?_, ?_, fun hA => ⟨?_, fun B hB hz hW => ?_⟩⟩
  · split_ifs
    exacts [le_rfl, hmem.1]
  · split_ifs
    exacts [zero_le_one, hmem.2]
  · intro hn' hF
    split_ifs with hk0
    · rfl
    · have hd := pathSum_diff (N := p.d1 + 1) (L := SemiMarkov.steps p lengths b) (b := b) (hK h) z (weight p F) (fun _ => Real.exp z) (n0 := n) (by simpa using hn)
        (M := 2 ^ Nat.clog 2 p.d1) (by omega) ⟨k - 1, by omega⟩ i j
      have ek : k - 1 + 1 = k := by omega
      simp only [entry, ek, if_pos hn'] at hd
      rw [hd, weight_eq_zero.2 hF, zero_mul, zero_div]
  · have hZ := allowed_pos hA
    have hn1 := share_near (N := p.d1 + 1) (b := b) (hK h) hN hM z (weight_nonneg (p := p) (F := F)) hwm [b, n, k, (i : ℕ), (j : ℕ)] (by rw [allowed_eq h]; exact hZ)
    have hs1 := share (F := F) h b n k i j
    rw [allowed_eq h] at hs1
    rw [allowed_eq h, hs1] at hn1
    split_ifs with hk0
    · have h0 : Gibbs.condProb (segScore (row p b) : Seg p lengths b → ℝ) (SegAvoids (F b)) (fun y => (n, k, i, j) ∈ segEdges 0 y.1 y.2.1) = 0 := by
        rw [← share h, segSum_share (by omega), sum_eq_zero, zero_div]
        intro y _
        refine if_neg fun hc => ?_
        rw [SemiMarkov.mem_parts] at hc
        have := (segEdges_mem y.2.1 0 y.1 y.2.2.1 _ hc).2.1
        simp only at this
        omega
      rw [h0, sub_zero, abs_zero]
      exact (abs_nonneg _).trans hn1
    · exact hn1
  · have hZ := allowed_pos hA
    rw [← allowed_eq h] at hZ ⊢
    refine gap_le (hK h) hN hM hz hB (fun n k c c' h1 h2 h3 => ?_) weight_nonneg hZ
    by_cases hF : F b n k c c'
    · exact Or.inl (weight_eq_zero.2 hF)
    · right
      have := abs_le.1 (hW n k h1 h2 (by omega) c c' hF)
      have e : weight p F (entry b (n, k, c, c')) = Real.exp (row p b n k c c') := by
        rw [weight]; exact if_neg hF
      rw [e]
      exact ⟨Real.exp_le_exp.2 this.1, Real.exp_le_exp.2 this.2⟩

/-- **C116.** With potentials `-inf`, `SemiMarkovCRF.partition` is a finite number and `SemiMarkovCRF.marginals` has numbers in `[0, 1]` only, never NaN, and 0 at
every forbidden segment of the row.  If the row has a segmentation without forbidden segments, the marginals are the probabilities given that nothing forbidden
is used, up to the amount by which `partition` exceeds the log of the total weight of these segmentations, and that amount is at most `err`. -/
theorem spec {σ : Slope} (hσ : Formula σ) (p : T5 ℝ) (lengths : Option (List ℕ)) (h : Valid p lengths) (F : ℕ → ℕ → ℕ → ℕ → ℕ → Prop) :
    ∃ vs μ, Dist.partitionE SemiMarkov.algo lengths (forbid5 p F) = .ok vs ∧
      SemiBackward.marginals σ (-100000) (forbid5 p F) lengths = .ok μ ∧ ∀ b < p.d0, ∃ v : ℝ, vs[b]? = some (v : EReal) ∧
      ∀ n < p.d1, ∀ k < p.d2, ∀ i j : Fin p.d3, ∃ q : ℝ, μ [b, n, k, (i : ℕ), (j : ℕ)] = IEEE.ofReal q ∧ 0 ≤ q ∧ q ≤ 1 ∧
        (n < SemiMarkov.steps p lengths b → F b n k i j → q = 0) ∧
        ((∃ y : Seg p lengths b, SegAvoids (F b) y) →
          |q - Gibbs.condProb (segScore (row p b) : Seg p lengths b → ℝ) (SegAvoids (F b)) (fun y => (n, k, i, j) ∈ segEdges 0 y.1 y.2.1)| ≤
            v - Real.log (allowed p lengths F b) ∧
          ∀ B, 0 ≤ B → Within p lengths F B b → v - Real.log (allowed p lengths F b) ≤ err p lengths (-100000) B b) := by
  obtain ⟨vs, μ, h1, h2, h3⟩ := specZ hσ.shares (-100000) h F
  refine ⟨vs, μ, h1, h2, fun b hb => ?_⟩
  obtain ⟨v, h4, h5⟩ := h3 b hb
  refine ⟨v, h4, fun n hn k hk i j => ?_⟩
  obtain ⟨q, h6, h7, h8, h9, h10⟩ := h5 n hn k hk i j
  exact ⟨q, h6, h7, h8, h9, fun hA => ⟨(h10 hA).1, fun B hB hW => (h10 hA).2 B hB (by norm_num) hW⟩⟩

/-- The error vanishes as the stand-in goes to minus infinity. -/
theorem err_tendsto (p : T5 ℝ) (lengths : Option (List ℕ)) (B : ℝ) (b : ℕ) : Filter.Tendsto (fun z => err p lengths z B b) Filter.atBot (nhds 0) := by
  have h1 : ∀ c : ℝ, Filter.Tendsto (fun z : ℝ => Real.exp (c + z)) Filter.atBot (nhds 0) := fun c =>
    Real.tendsto_exp_atBot.comp (Filter.tendsto_atBot_add_const_left _ c Filter.tendsto_id)
  have := (h1 (2 * SemiMarkov.steps p lengths b * B)).const_mul
    ((p.d3 ^ 2 * (((p.d2 - 1) * p.d3) ^ (2 ^ Nat.clog 2 p.d1 + 1) * 2 ^ 2 ^ Nat.clog 2 p.d1) : ℕ) : ℝ)
  rw [mul_zero] at this
  exact this

/-- There is a bound of the potentials. -/
theorem exists_within (p : T5 ℝ) (lengths : Option (List ℕ)) (F : ℕ → ℕ → ℕ → ℕ → ℕ → Prop) (b : ℕ) : ∃ B, 0 ≤ B ∧ Within p lengths F B b := by
  obtain ⟨B, hB⟩ := (Set.finite_range fun x : Fin (SemiMarkov.steps p lengths b) × Fin p.d2 × Fin p.d3 × Fin p.d3 =>
    |row p b x.1 x.2.1 x.2.2.1 x.2.2.2|).bddAbove
  exact ⟨max B 0, le_max_right _ _, fun n k hn _ hk i j _ => (hB ⟨⟨⟨n, hn⟩, ⟨k, hk⟩, i, j⟩, rfl⟩ : _ ≤ B).trans (le_max_left _ _)⟩

/-- **C116, limit form.**  As the stand-in for `log 0` goes to minus infinity, the marginals converge to the conditional probabilities. -/
theorem limit {σ : Slope} (hσ : Formula σ) (p : T5 ℝ) (lengths : Option (List ℕ)) (h : Valid p lengths) (F : ℕ → ℕ → ℕ → ℕ → ℕ → Prop) :
    ∃ μ : ℝ → List ℕ → ℝ, (∀ z, ∃ m, SemiBackward.marginals σ z (forbid5 p F) lengths = .ok m ∧ ∀ b < p.d0, ∀ n < p.d1, ∀ k < p.d2, ∀ i j : Fin p.d3,
        m [b, n, k, (i : ℕ), (j : ℕ)] = IEEE.ofReal (μ z [b, n, k, (i : ℕ), (j : ℕ)])) ∧
      ∀ b < p.d0, (∃ y : Seg p lengths b, SegAvoids (F b) y) → ∀ n < p.d1, ∀ k < p.d2, ∀ i j : Fin p.d3,
        Filter.Tendsto (fun z => μ z [b, n, k, (i : ℕ), (j : ℕ)]) Filter.atBot
          (nhds (Gibbs.condProb (segScore (row p b) : Seg p lengths b → ℝ) (SegAvoids (F b)) (fun y => (n, k, i, j) ∈ segEdges 0 y.1 y.2.1))) := by
  choose vs m h1 h2 h3 using fun z => specZ hσ.shares z h F
  refine ⟨fun z e => ((m z e).getD 0).toReal, fun z => ⟨m z, h2 z, fun b hb n hn k hk i j => ?_⟩, fun b hb hA n hn k hk i j => ?_⟩
  · obtain ⟨v, _, h4⟩ := h3 z b hb
    obtain ⟨q, hq, _⟩ := h4 n hn k hk i j
    have e : ((m z [b, n, k, (i : ℕ), (j : ℕ)]).getD 0).toReal = q := by rw [hq]; simp [IEEE.ofReal]
    rw [hq]
    exact congrArg IEEE.ofReal e.symm
  · obtain ⟨B, hB0, hB⟩ := exists_within p lengths F b
    rw [tendsto_iff_norm_sub_tendsto_zero]
    refine squeeze_zero' (Filter.Eventually.of_forall fun z => norm_nonneg _) ((Filter.eventually_le_atBot 0).mono fun z hz => ?_) (err_tendsto p lengths B b)
    obtain ⟨v, _, h4⟩ := h3 z b hb
    obtain ⟨q, hq, _, _, _, h5⟩ := h4 n hn k hk i j
    obtain ⟨h6, h7⟩ := h5 hA
    have e : ((m z [b, n, k, (i : ℕ), (j : ℕ)]).getD 0).toReal = q := by rw [hq]; simp [IEEE.ofReal]
    beta_reduce
    rw [e]
    exact h6.trans (h7 B hB0 hz hB)

/-- A concrete case: two rows of 3 and 2 steps over 2 classes, with segments of 1 or 2 steps, where a segment of 2 steps may not end in class 1.  Both rows have an
allowed segmentation, and the potentials are within `[-10, 10]`. -/
def banned : ℕ → ℕ → ℕ → ℕ → ℕ → Prop := fun _ _ k _ j => k = 2 ∧ j = 1

theorem banned_ok (b : ℕ) : ∃ y : Seg SemiMarkov.sample (some [4, 3]) b, SegAvoids (banned b) y := by
  refine ⟨⟨⟨0, by simp [SemiMarkov.sample]⟩, ⟨List.replicate (SemiMarkov.steps SemiMarkov.sample (some [4, 3]) b) (1, ⟨0, by simp [SemiMarkov.sample]⟩), ?_, ?_⟩⟩, ?_⟩
  · intro s hs
    rw [List.eq_of_mem_replicate hs]
    simp [SemiMarkov.sample]
  · simp
  · intro s hs hF
    have : ∀ (m n : ℕ) (c d : Fin SemiMarkov.sample.d3), ∀ s ∈ segEdges n c (List.replicate m (1, d)), s.2.1 = 1 := by
      intro m
      induction m with
      | zero => intro n c d s hs; simp [segEdges] at hs
      | succ m ih =>
        intro n c d s hs
        rw [List.replicate_succ, segEdges, List.mem_cons] at hs
        rcases hs with rfl | hs
        · rfl
        · exact ih _ _ _ s hs
    have h1 := this _ _ _ _ s hs
    have h2 := hF.1
    omega

theorem banned_within (b : ℕ) (hb : b < 2) : Within SemiMarkov.sample (some [4, 3]) banned 10 b := by
  intro n k hn _ hk i j _
  have hn1 : n < 3 := by
    have : SemiMarkov.steps SemiMarkov.sample (some [4, 3]) b ≤ 3 := by
      interval_cases b <;> simp [SemiMarkov.steps, lenOf, SemiMarkov.sample]
    omega
  have hk1 : k < 3 := hk
  have hi : (i : ℕ) < 2 := i.2
  have hj : (j : ℕ) < 2 := j.2
  have hb' : (b : ℝ) ≤ 1 := by exact_mod_cast Nat.le_of_lt_succ hb
  have hn' : (n : ℝ) ≤ 2 := by exact_mod_cast Nat.le_of_lt_succ hn1
  have hk' : (k : ℝ) ≤ 2 := by exact_mod_cast Nat.le_of_lt_succ hk1
  have hi' : ((i : ℕ) : ℝ) ≤ 1 := by exact_mod_cast Nat.le_of_lt_succ hi
  have hj' : ((j : ℕ) : ℝ) ≤ 1 := by exact_mod_cast Nat.le_of_lt_succ hj
  have := (Nat.cast_nonneg b : (0 : ℝ) ≤ b)
  have := (Nat.cast_nonneg n : (0 : ℝ) ≤ n)
  have := (Nat.cast_nonneg k : (0 : ℝ) ≤ k)
  have := (Nat.cast_nonneg (i : ℕ) : (0 : ℝ) ≤ (i : ℕ))
  have := (Nat.cast_nonneg (j : ℕ) : (0 : ℝ) ≤ (j : ℕ))
  simp only [row, SemiMarkov.sample]
  rw [abs_le]
  constructor <;> linarith

example : ∃ vs μ, Dist.partitionE SemiMarkov.algo (some [4, 3]) (forbid5 SemiMarkov.sample banned) = .ok vs ∧
    SemiBackward.marginals Slope.plain (-100000) (forbid5 SemiMarkov.sample banned) (some [4, 3]) = .ok μ ∧ μ [0, 0, 2, 0, 1] = IEEE.ofReal 0 ∧
    ∃ v : ℝ, vs[1]? = some (v : EReal) ∧
      v - Real.log (allowed SemiMarkov.sample (some [4, 3]) banned 1) ≤ err SemiMarkov.sample (some [4, 3]) (-100000) 10 1 := by
  obtain ⟨vs, μ, h1, h2, h3⟩ := spec (Or.inl rfl) SemiMarkov.sample (some [4, 3]) SemiMarkov.sample_valid banned
  obtain ⟨v, -, h4⟩ := h3 0 (by simp [SemiMarkov.sample])
  obtain ⟨q, hq, -, -, h5, -⟩ := h4 0 (by simp [SemiMarkov.sample]) 2 (by simp [SemiMarkov.sample]) ⟨0, by simp [SemiMarkov.sample]⟩ ⟨1, by simp [SemiMarkov.sample]⟩
  obtain ⟨v', hv, h6⟩ := h3 1 (by simp [SemiMarkov.sample])
  obtain ⟨q', -, -, -, -, h7⟩ := h6 0 (by simp [SemiMarkov.sample]) 1 (by simp [SemiMarkov.sample]) ⟨0, by simp [SemiMarkov.sample]⟩ ⟨0, by simp [SemiMarkov.sample]⟩
  refine ⟨vs, μ, h1, h2, ?_, v', hv, (h7 (banned_ok 1)).2 10 (by norm_num) (banned_within 1 (by omega))⟩
  rw [← h5 (by simp [SemiMarkov.steps, lenOf, SemiMarkov.sample]) ⟨rfl, rfl⟩]
  exact hq

end Props.SemiInfinity
