import Verif.Model.ChainBackward
import Verif.Proofs.TreeBackwardValue
import Verif.Proofs.LinearChainLog

/-! The backward pass of `LinearChainCRF.marginals` in closed form.  No entry of the chart is `-inf`, so every factor is a quotient of positive weights. -/

open Finset Spec LinearChain ChainProofs LinearChainProofs ChainBounds LinearChainLog
open TreeBackwardProofs (LogOf slope_real guarded_real)

noncomputable section
namespace ChainBackwardProofs
open ChainBackward
variable {C : ℕ}

/-- The factor of `logsumexp` is the share of the summand wherever the sum is not 0. -/
def Shares (σ : Slope) : Prop := ∀ {t r : EReal} {y z : ℝ}, LogOf t y → LogOf r z → z ≠ 0 → σ t r = IEEE.ofReal (y / z)

theorem shares_plain : Shares Slope.plain := fun ht hr hz => slope_real ht hr hz
theorem shares_guarded : Shares Slope.guarded := fun ht hr hz => guarded_real ht hr fun h => absurd h hz

theorem logOf_rel (z : ℝ) : SRRel (sr z) LogOf :=
  ⟨fun h1 h2 => TreeBackwardProofs.logOf_rel.mul h1 h2, fun h1 h2 => TreeBackwardProofs.logOf_rel.sum h1 h2⟩

theorem logOf_exp (x : ℝ) : LogOf (x : EReal) (Real.exp x) := ⟨(Real.exp_pos x).le, EReal.exp_coe x⟩

theorem addAll_real {m : ℕ} (f : Fin m → ℝ) : addAll (List.ofFn fun i => IEEE.ofReal (f i)) = IEEE.ofReal (∑ i, f i) := by
  rw [← List.sum_ofFn]
  have : ∀ l : List ℝ, addAll (l.map IEEE.ofReal) = IEEE.ofReal l.sum := by
    intro l
    induction l with
    | nil => rfl
    | cons x l ih =>
      rw [List.map_cons, List.sum_cons, ← IEEE.add_real, ← ih]
      rfl
  rw [← this, List.map_ofFn]
  rfl

/-! ### Products of neighbours -/

/-- One round of the scan on weights. -/
def pairs (w : ℕ → Fin C → Fin C → ℝ) (n : ℕ) (i j : Fin C) : ℝ := ∑ k, w (2 * n + 1) i k * w (2 * n) k j

theorem segProd_pairs (w : ℕ → Fin C → Fin C → ℝ) (m : ℕ) : segProd w 0 (2 * m) = segProd (pairs w) 0 m := by
  induction m with
  | zero => rfl
  | succ m ih =>
    rw [show 2 * (m + 1) = 2 * m + 1 + 1 by ring]
    simp only [segProd, Nat.zero_add]
    rw [ih, ← Matrix.mul_assoc]
    congr 1

theorem chainSum_pairs (w : ℕ → Fin C → Fin C → ℝ) (m : ℕ) : chainSum (2 * m) w = chainSum m (pairs w) := by
  rw [← sum_segProd, ← sum_segProd, segProd_pairs]

/-- The path sum is linear in the matrix of one position. -/
theorem chainSum_at (w : ℕ → Fin C → Fin C → ℝ) {M n0 : ℕ} (hn : n0 < M) (X : Fin C → Fin C → ℝ) :
    chainSum M (fun n i j => if n = n0 then X i j else w n i j) = ∑ i, ∑ j, X i j * chainSum M (only w n0 i j 1) := by
  have key : ∀ (A : Fin C → Fin C → ℝ) (y : Tags M C), seqProd (fun n i j => if n = n0 then A i j else w n i j) y =
      A (y (⟨n0, hn⟩ : Fin M).succ) (y (⟨n0, hn⟩ : Fin M).castSucc) * ∏ n ∈ univ.erase (⟨n0, hn⟩ : Fin M), w n (y n.succ) (y n.castSucc) := by
    intro A y
    rw [seqProd, ← mul_prod_erase univ _ (mem_univ (⟨n0, hn⟩ : Fin M))]
    congr 1
    · simp
    · refine prod_congr rfl fun n hn' => ?_
      rw [if_neg fun hc => (mem_erase.1 hn').1 (Fin.ext hc)]
  have e : ∀ i j, only w n0 i j 1 = fun n i' j' => if n = n0 then (if i' = i ∧ j' = j then (1 : ℝ) else 0) else w n i' j' := fun i j => rfl
  simp only [e, chainSum, mul_sum, key]
  rw [sum_congr rfl fun i _ => sum_comm, sum_comm]
  refine sum_congr rfl fun y _ => ?_
  simp only [ite_mul, one_mul, zero_mul, mul_ite, mul_zero, ite_and]
  rw [sum_eq_single (y (⟨n0, hn⟩ : Fin M).succ), sum_eq_single (y (⟨n0, hn⟩ : Fin M).castSucc)]
  · simp
  · intro j _ hj
    rw [if_neg hj.symm, ite_self]
  · simp
  · intro i _ hi
    refine sum_eq_zero fun j _ => if_neg hi.symm
  · simp

theorem chainSum_entry (w : ℕ → Fin C → Fin C → ℝ) {M n0 : ℕ} (hn : n0 < M) (i j : Fin C) (v : ℝ) :
    chainSum M (only w n0 i j v) = v * chainSum M (only w n0 i j 1) := by
  have := chainSum_at w hn fun i' j' => if i' = i ∧ j' = j then v else 0
  rw [show (fun n i' j' => if n = n0 then (if i' = i ∧ j' = j then v else 0) else w n i' j') = only w n0 i j v from rfl] at this
  rw [this, sum_eq_single i, sum_eq_single j]
  · simp
  · intro j' _ hj; simp [hj]
  · simp
  · intro i' _ hi; simp [hi]
  · simp

/-- The path sum through an entry of a left operand. -/
theorem through_left (w : ℕ → Fin C → Fin C → ℝ) {m n : ℕ} (hn : n < m) (i j : Fin C) :
    chainSum (2 * m) (only w (2 * n + 1) i j 1) = ∑ c, w (2 * n) j c * chainSum m (only (pairs w) n i c 1) := by
  rw [chainSum_pairs]
  have := chainSum_at (pairs w) hn fun i' j' => if i' = i then w (2 * n) j j' else 0
  rw [sum_eq_single i (fun i' _ hi => by simp [hi]) (by simp)] at this
  simp only [if_true] at this
  rw [← this]
  refine chainSum_congr fun n' _ i' j' => ?_
  simp only [pairs, only]
  by_cases h : n' = n
  · subst h
    simp only [if_true, show ¬ 2 * n' = 2 * n' + 1 by omega, if_false]
    by_cases hi : i' = i
    · simp [hi]
    · simp [hi]
  · simp only [h, if_false, show ¬ 2 * n' + 1 = 2 * n + 1 by omega, show ¬ 2 * n' = 2 * n + 1 by omega]

/-- The path sum through an entry of a right operand. -/
theorem through_right (w : ℕ → Fin C → Fin C → ℝ) {m n : ℕ} (hn : n < m) (i j : Fin C) :
    chainSum (2 * m) (only w (2 * n) i j 1) = ∑ r, w (2 * n + 1) r i * chainSum m (only (pairs w) n r j 1) := by
  rw [chainSum_pairs]
  have := chainSum_at (pairs w) hn fun i' j' => if j' = j then w (2 * n + 1) i' i else 0
  simp only [ite_mul, zero_mul, sum_ite_eq', mem_univ, if_true] at this
  rw [← this]
  refine chainSum_congr fun n' _ i' j' => ?_
  simp only [pairs, only]
  by_cases h : n' = n
  · subst h
    simp only [if_true, show ¬ 2 * n' + 1 = 2 * n' by omega, if_false]
    by_cases hj : j' = j
    · simp [hj]
    · simp [hj]
  · simp only [h, if_false, show ¬ 2 * n' + 1 = 2 * n by omega, show ¬ 2 * n' = 2 * n by omega]

theorem pairs_pos (hC : 0 < C) {w : ℕ → Fin C → Fin C → ℝ} {m : ℕ} (h : ∀ n < 2 * m, ∀ i j, 0 < w n i j) : ∀ n < m, ∀ i j, 0 < pairs w n i j := by
  intro n hn i j
  have : Nonempty (Fin C) := ⟨⟨0, hC⟩⟩
  exact sum_pos (fun k _ => mul_pos (h _ (by omega) _ _) (h _ (by omega) _ _)) univ_nonempty

theorem scanStep_logOf (z : ℝ) (hC : 0 < C) {chart : ℕ → Fin C → Fin C → EReal} {w : ℕ → Fin C → Fin C → ℝ} {m : ℕ}
    (h : ∀ n < 2 * m, ∀ i j, LogOf (chart n i j) (w n i j)) : ∀ n < m, ∀ i j, LogOf (scanStep (sr z) chart n i j) (pairs w n i j) :=
  fun n hn i j => (logOf_rel z).matmul hC (fun i k => h _ (by omega) i k) (fun k j => h _ (by omega) k j) i j

/-! ### The scan backwards -/

theorem scanBack_eq {σ : Slope} (hσ : Shares σ) (z : ℝ) (hC : 0 < C) (Z : ℝ) (k : ℕ) : ∀ (chart : ℕ → Fin C → Fin C → EReal) (w : ℕ → Fin C → Fin C → ℝ)
    (g : Fin C → Fin C → IEEE), (∀ n < 2 ^ k, ∀ i j, 0 < w n i j) → (∀ n < 2 ^ k, ∀ i j, LogOf (chart n i j) (w n i j)) →
    (∀ i j, g i j = IEEE.ofReal (segProd w 0 (2 ^ k) i j / Z)) → ∀ n < 2 ^ k, ∀ i j,
    scanBack σ (sr z) k chart g n i j = IEEE.ofReal (w n i j * chainSum (2 ^ k) (only w n i j 1) / Z) := by
  induction k with
  | zero =>
    intro chart w g _ _ hg n hn i j
    obtain rfl : n = 0 := by simpa using hn
    simp only [scanBack, if_true]
    rw [hg, ← chainSum_entry w (by simp), ← sum_segProd]
    congr 2
    have : ∀ (A : ℕ → Fin C → Fin C → ℝ) i j, segProd A 0 (2 ^ 0) i j = A 0 i j := fun A i j => by simp [segProd]
    simp only [this, only, if_true]
    rw [sum_eq_single i (fun i' _ hi => by simp [hi]) (by simp), sum_eq_single j (fun j' _ hj => by simp [hj]) (by simp)]
    simp
  | succ k ih =>
    intro chart w g hw hc hg n hn i j
    have e2 : 2 ^ (k + 1) = 2 * 2 ^ k := by ring
    rw [e2] at hw hc hn
    have hp := pairs_pos hC hw
    have hl := scanStep_logOf z hC hc
    have IH := ih (scanStep (sr z) chart) (pairs w) g hp hl (fun i j => by rw [hg, e2, segProd_pairs])
    rw [scanBack, stepBack, e2]
    rcases Nat.mod_two_eq_zero_or_one n with h | h
    · obtain ⟨q, rfl⟩ : ∃ q, n = 2 * q := ⟨n / 2, by omega⟩
      have hq : q < 2 ^ k := by omega
      rw [if_neg (by omega), show 2 * q / 2 = q by omega, through_right w hq, mul_sum, sum_div, ← addAll_real]
      congr 2
      funext r
      rw [IH q hq, hσ ((logOf_rel z).mul (hc _ (by omega) r i) (hc _ (by omega) i j)) (hl q hq r j) (hp q hq r j).ne', IEEE.mul_real]
      congr 1
      have := (hp q hq r j).ne'
      field_simp
    · obtain ⟨q, rfl⟩ : ∃ q, n = 2 * q + 1 := ⟨n / 2, by omega⟩
      have hq : q < 2 ^ k := by omega
      rw [if_pos h, show (2 * q + 1) / 2 = q by omega, show 2 * q + 1 - 1 = 2 * q by omega, through_left w hq, mul_sum, sum_div, ← addAll_real]
      congr 2
      funext c
      rw [IH q hq, hσ ((logOf_rel z).mul (hc _ (by omega) i j) (hc _ (by omega) j c)) (hl q hq i c) (hp q hq i c).ne', IEEE.mul_real]
      congr 1
      have := (hp q hq i c).ne'
      field_simp

theorem scan_logOf (z : ℝ) (hC : 0 < C) (k : ℕ) {chart : ℕ → Fin C → Fin C → EReal} {w : ℕ → Fin C → Fin C → ℝ}
    (h : ∀ n < 2 ^ k, ∀ i j, LogOf (chart n i j) (w n i j)) (i j : Fin C) : LogOf (scan (sr z) k chart 0 i j) (segProd w 0 (2 ^ k) i j) := by
  have := scan_rel (logOf_rel z) hC k chart w 1 1 (fun n hn i j => by
    have hn' : n < 2 ^ k := by omega
    simpa [segProd] using h n hn' i j) 0 (by omega)
  simpa only [one_mul, Nat.zero_mul] using this i j

theorem segProd_pos (hC : 0 < C) {w : ℕ → Fin C → Fin C → ℝ} {m : ℕ} (h : ∀ n < m + 1, ∀ i j, 0 < w n i j) (i j : Fin C) : 0 < segProd w 0 (m + 1) i j := by
  induction m generalizing i with
  | zero => simpa [segProd] using h 0 (by omega) i j
  | succ m ih =>
    have : Nonempty (Fin C) := ⟨⟨0, hC⟩⟩
    rw [segProd, Matrix.mul_apply]
    exact sum_pos (fun k _ => mul_pos (h _ (by omega) _ _) (ih (fun n hn => h n (by omega)) k)) univ_nonempty

theorem totalBack_eq {σ : Slope} (hσ : Shares σ) (z : ℝ) (hC : 0 < C) {x : Fin C → Fin C → EReal} {w : Fin C → Fin C → ℝ} (hw : ∀ i j, 0 < w i j)
    (h : ∀ i j, LogOf (x i j) (w i j)) (i j : Fin C) : totalBack σ (sr z) x i j = IEEE.ofReal (w i j / ∑ i, ∑ j, w i j) := by
  have : Nonempty (Fin C) := ⟨⟨0, hC⟩⟩
  have hr : ∀ i, LogOf ((sr z).sum (List.ofFn fun j => x i j)) (∑ j, w i j) := fun i => (logOf_rel z).sum_ofFn hC (h i)
  have hr0 : ∀ i, 0 < ∑ j, w i j := fun i => sum_pos (fun j _ => hw i j) univ_nonempty
  have ht : LogOf ((sr z).sum (List.ofFn fun i => (sr z).sum (List.ofFn fun j => x i j))) (∑ i, ∑ j, w i j) := (logOf_rel z).sum_ofFn hC hr
  have ht0 : 0 < ∑ i, ∑ j, w i j := sum_pos (fun i _ => hr0 i) univ_nonempty
  simp only [totalBack]
  rw [hσ (hr i) ht ht0.ne', hσ (h i j) (hr i) (hr0 i).ne', IEEE.mul_real, IEEE.mul_real]
  congr 1
  have := (hr0 i).ne'
  field_simp

/-! ### One row -/

/-- The weights of the entries of `lp` after the length mask. -/
def lw (z : ℝ) (w : ℕ → Fin C → Fin C → ℝ) (L n : ℕ) (i j : Fin C) : ℝ := if n < L then w n i j else Real.exp z

/-- The gradient is the share of the paths that take the edge through the potentials. -/
theorem rowBack_eq {σ : Slope} (hσ : Shares σ) (z : ℝ) (hC : 0 < C) {N logN : ℕ} (hN : N - 1 ≤ 2 ^ logN) {lens : ℕ → ℕ}
    {lp : ℕ → ℕ → Fin C → Fin C → EReal} {b : ℕ} (hl : lens b ≤ N) {w : ℕ → Fin C → Fin C → ℝ} (hw : ∀ n i j, LogOf (lp b n i j) (w n i j))
    (n : ℕ) (hn : n < N - 1) (i j : Fin C) :
    let W : ℕ → Fin C → Fin C → ℝ := fun n i j => cw z (lens b - 1) n i j + lw z w (lens b - 1) n i j
    rowBack σ (sr z) N logN lens lp b n i j =
      IEEE.ofReal (chainSum (2 ^ logN) (only W n i j (lw z w (lens b - 1) n i j)) / chainSum (2 ^ logN) W) := by
  intro W
  have hlw : ∀ n i j, 0 ≤ lw z w (lens b - 1) n i j := fun n i j => by
    unfold lw; split_ifs
    · exact (hw n i j).1
    · positivity
  have hcw : ∀ n (i j : Fin C), 0 < cw z (lens b - 1) n i j := fun n i j => by unfold cw; split_ifs <;> positivity
  have hW : ∀ n < 2 ^ logN, ∀ i j, 0 < W n i j := fun n _ i j => add_pos_of_pos_of_nonneg (hcw n i j) (hlw n i j)
  have hent : ∀ n < 2 ^ logN, ∀ i j, LogOf (entry (sr z) N (lens b) (lp b) n i j) (lw z w (lens b - 1) n i j) := by
    intro n _ i j
    simp only [entry, SR.fill, lw]
    by_cases h : n < lens b - 1
    · rw [if_pos h, if_neg (by rw [decide_eq_true_eq]; omega), if_pos (by omega)]
      exact hw n i j
    · rw [if_neg h, if_pos (by rw [decide_eq_true_eq]; omega)]
      exact logOf_exp z
  have hchart : ∀ n < 2 ^ logN, ∀ i j, LogOf (masked (sr z) N (2 ^ logN) lens lp b n i j) (W n i j) := by
    intro n hn i j
    rw [masked_apply _ _ _ _ _ _ _ hn]
    refine (logOf_rel z).sum2 ?_ (hent n hn i j)
    simp only [maskedC, sr, Semirings.logE, SR.fill, cw]
    by_cases h : n < lens b - 1
    · simpa [h, show ¬ lens b - 1 ≤ n by omega] using logOf_exp z
    · simp only [h, show lens b - 1 ≤ n by omega, ge_iff_le, decide_true, Bool.not_true, if_false]
      by_cases hij : i = j
      · simpa [hij] using logOf_exp 0
      · simpa [hij] using logOf_exp z
  have htop : ∀ i j, LogOf (scan (sr z) logN (masked (sr z) N (2 ^ logN) lens lp b) 0 i j) (segProd W 0 (2 ^ logN) i j) := scan_logOf z hC logN hchart
  have hseg : ∀ i j, 0 < segProd W 0 (2 ^ logN) i j := by
    obtain ⟨m, hm⟩ : ∃ m, 2 ^ logN = m + 1 := ⟨2 ^ logN - 1, by have := Nat.one_le_two_pow (n := logN); omega⟩
    rw [hm] at hW ⊢
    exact segProd_pos hC hW
  have hn' : n < 2 ^ logN := by omega
  rw [rowBack, scanBack_eq hσ z hC (chainSum (2 ^ logN) W) logN _ W _ hW hchart (fun i j => by
      rw [totalBack_eq hσ z hC hseg htop, sum_segProd]) n hn' i j,
    hσ (hent n hn' i j) (hchart n hn' i j) (hW n hn' i j).ne', IEEE.mul_real, chainSum_entry W hn' i j (lw z w (lens b - 1) n i j)]
  congr 1
  have := (hW n hn' i j).ne'
  field_simp

/-! ### Weights with zeros -/

/-- The weights without any stand-in. -/
def tw (w : ℕ → Fin C → Fin C → ℝ) (L n : ℕ) (i j : Fin C) : ℝ := if n < L then w n i j else if i = j then 1 else 0

section weights
variable {w : ℕ → Fin C → Fin C → ℝ} {L M : ℕ}

theorem total_tw (hC : 0 < C) (h : L ≤ M) : chainSum M (tw w L) = chainSum L w := chainSum_idpad hC w L M h

theorem total_w (hC : 0 < C) (z : ℝ) (h : L ≤ M) : chainSum M (fun n i j => cw z L n i j + lw z w L n i j) =
    (1 + (2 * C - 1 : ℕ) * Real.exp z) ^ (M - L) * chainSum L (fun n i j => w n i j + Real.exp z) := by
  rw [← chainSum_smooth hC (Real.exp z) w L M h]
  refine chainSum_congr fun n _ i j => ?_
  simp only [cw, lw]
  split_ifs <;> rfl

theorem only_tw (hC : 0 < C) (h : L ≤ M) (n0 : ℕ) (hn : n0 < L) (i0 j0 : Fin C) :
    chainSum M (only (tw w L) n0 i0 j0 (w n0 i0 j0)) = ∑ y : Tags L C, if UsesEdge y n0 i0 j0 then seqProd w y else 0 := by
  have e : ∀ n, ∀ i j, only (tw w L) n0 i0 j0 (w n0 i0 j0) n i j =
      if n < L then (if n = n0 then (if i = i0 ∧ j = j0 then w n i j else 0) else w n i j) else if i = j then 1 else 0 := by
    intro n i j
    simp only [only, tw]
    by_cases h1 : n = n0
    · subst h1
      simp only [hn, if_true]
      by_cases h2 : i = i0 ∧ j = j0
      · rw [if_pos h2, if_pos h2, h2.1, h2.2]
      · rw [if_neg h2, if_neg h2]
    · simp [h1]
  rw [chainSum_congr fun n _ i j => e n i j, chainSum_idpad hC _ L M h]
  refine sum_congr rfl fun y _ => ?_
  rw [seqProd]
  by_cases hy : UsesEdge y n0 i0 j0
  · rw [if_pos hy, seqProd]
    refine prod_congr rfl fun n _ => ?_
    by_cases h1 : (n : ℕ) = n0
    · subst h1
      obtain ⟨_, h2, h3⟩ := hy
      rw [if_pos rfl]
      exact if_pos ⟨h2, h3⟩
    · rw [if_neg h1]
  · rw [if_neg hy]
    refine prod_eq_zero (mem_univ (⟨n0, hn⟩ : Fin L)) ?_
    rw [if_pos rfl]
    exact if_neg fun hc => hy ⟨hn, hc.1, hc.2⟩

theorem tw_nonneg (hw : ∀ n i j, 0 ≤ w n i j) (n : ℕ) (i j : Fin C) : 0 ≤ tw w L n i j := by
  unfold tw; split_ifs
  exacts [hw n i j, zero_le_one, le_rfl]

theorem lw_nonneg (hw : ∀ n i j, 0 ≤ w n i j) (z : ℝ) (n : ℕ) (i j : Fin C) : 0 ≤ lw z w L n i j := by
  unfold lw; split_ifs
  exacts [hw n i j, (Real.exp_pos z).le]

theorem cw_pos (z : ℝ) (n : ℕ) (i j : Fin C) : 0 < cw z L n i j := by unfold cw; split_ifs <;> positivity

theorem tw_le (hw : ∀ n i j, 0 ≤ w n i j) (z : ℝ) (n : ℕ) (i j : Fin C) : tw w L n i j ≤ cw z L n i j + lw z w L n i j := by
  have h1 := hw n i j
  have h2 := Real.exp_pos z
  unfold tw cw lw
  split_ifs <;> linarith

theorem total_pos (hC : 0 < C) (hw : ∀ n i j, 0 ≤ w n i j) (z : ℝ) : 0 < chainSum M (fun n i j => cw z L n i j + lw z w L n i j) := by
  have : Nonempty (Fin C) := ⟨⟨0, hC⟩⟩
  exact sum_pos (fun y _ => prod_pos fun n _ => add_pos_of_pos_of_nonneg (cw_pos z _ _ _) (lw_nonneg hw z _ _ _)) univ_nonempty

theorem total_le (hC : 0 < C) (hw : ∀ n i j, 0 ≤ w n i j) (z : ℝ) (h : L ≤ M) : chainSum L w ≤ chainSum M (fun n i j => cw z L n i j + lw z w L n i j) := by
  rw [← total_tw hC h]
  exact chainSum_mono (fun _ _ _ _ => tw_nonneg hw _ _ _) fun _ _ _ _ => tw_le hw z _ _ _

/-- The share of an edge is in `[0, 1]`. -/
theorem share_mem (hC : 0 < C) (hw : ∀ n i j, 0 ≤ w n i j) (z : ℝ) (n0 : ℕ) (i0 j0 : Fin C) :
    let W : ℕ → Fin C → Fin C → ℝ := fun n i j => cw z L n i j + lw z w L n i j
    let q := chainSum M (only W n0 i0 j0 (lw z w L n0 i0 j0)) / chainSum M W
    0 ≤ q ∧ q ≤ 1 := by
  intro W q
  have hW0 : ∀ n i j, 0 ≤ W n i j := fun n i j => (add_pos_of_pos_of_nonneg (cw_pos z _ _ _) (lw_nonneg hw z _ _ _)).le
  have h0 : ∀ n < M, ∀ i j, 0 ≤ only W n0 i0 j0 (lw z w L n0 i0 j0) n i j := by
    intro n _ i j; unfold only; split_ifs
    exacts [lw_nonneg hw _ _ _ _, le_rfl, hW0 _ _ _]
  have hp := total_pos (M := M) (L := L) hC hw z
  refine ⟨div_nonneg (chainSum_nonneg h0) hp.le, (div_le_one hp).2 (chainSum_mono h0 ?_)⟩
  intro n _ i j; unfold only; split_ifs with h1 h2
  · rw [h1, h2.1, h2.2]
    exact le_add_of_nonneg_left (cw_pos z _ _ _).le
  · exact hW0 _ _ _
  · exact le_rfl

/-- The share of an edge among all paths, with and without the stand-in. -/
theorem share_near (hC : 0 < C) (hw : ∀ n i j, 0 ≤ w n i j) (z : ℝ) (h : L ≤ M) (hZ : 0 < chainSum L w) (n0 : ℕ) (hn0 : n0 < M) (i0 j0 : Fin C) :
    let W : ℕ → Fin C → Fin C → ℝ := fun n i j => cw z L n i j + lw z w L n i j
    |chainSum M (only W n0 i0 j0 (lw z w L n0 i0 j0)) / chainSum M W - (∑ y : Tags L C, if UsesEdge y n0 i0 j0 then seqProd w y else 0) / chainSum L w| ≤
      Real.log (chainSum M W) - Real.log (chainSum L w) := by
  intro W
  have hle := total_le (M := M) hC hw z h
  have hp : 0 < chainSum M W := hZ.trans_le hle
  have hlog : (chainSum M W - chainSum L w) / chainSum M W ≤ Real.log (chainSum M W) - Real.log (chainSum L w) := by
    rw [← Real.log_div hp.ne' hZ.ne', sub_div, div_self hp.ne', ← inv_div]
    exact Real.one_sub_inv_le_log_of_pos (div_pos hp hZ)
  refine le_trans ?_ hlog
  have hs0 : ∀ y : Tags L C, 0 ≤ seqProd w y := fun y => prod_nonneg fun n _ => hw _ _ _
  by_cases hn : n0 < L
  · have hA := only_tw (w := w) hC h n0 hn i0 j0
    have hlw : lw z w L n0 i0 j0 = w n0 i0 j0 := if_pos hn
    have htw : tw w L n0 i0 j0 = w n0 i0 j0 := if_pos hn
    have hs := share_sandwich (M := M) (n0 := n0) hn0 i0 j0 (T := tw w L) (W := W)
      (fun n _ i j => tw_nonneg hw _ _ _) (fun n _ i j => tw_le hw _ _ _ _) (t := w n0 i0 j0)
      (b := lw z w L n0 i0 j0) (hw _ _ _) hlw.ge htw.ge (by
        rw [htw]
        change w n0 i0 j0 - w n0 i0 j0 ≤ cw z L n0 i0 j0 + lw z w L n0 i0 j0 - lw z w L n0 i0 j0
        rw [sub_self, add_sub_cancel_right]; exact (cw_pos z _ _ _).le)
    rw [total_tw hC h] at hs
    rw [← hA]
    refine ratio_sandwich hZ hle ?_ ?_ hs.1 hs.2
    · rw [hA]; exact sum_nonneg fun y _ => by split_ifs <;> [exact hs0 y; exact le_rfl]
    · rw [hA]; exact sum_le_sum fun y _ => by split_ifs <;> [exact le_rfl; exact hs0 y]
  · have hzero : (∑ y : Tags L C, if UsesEdge y n0 i0 j0 then seqProd w y else 0) = 0 :=
      sum_eq_zero fun y _ => if_neg fun ⟨hc, _⟩ => hn hc
    have hlw : lw z w L n0 i0 j0 = Real.exp z := if_neg hn
    have hs := share_sandwich (M := M) (n0 := n0) hn0 i0 j0 (T := tw w L) (W := W)
      (fun n _ i j => tw_nonneg hw _ _ _) (fun n _ i j => tw_le hw _ _ _ _) (t := 0)
      (b := lw z w L n0 i0 j0) le_rfl (lw_nonneg hw _ _ _ _) (tw_nonneg hw _ _ _) (by
        change tw w L n0 i0 j0 - 0 ≤ cw z L n0 i0 j0 + lw z w L n0 i0 j0 - lw z w L n0 i0 j0
        simp only [sub_zero, add_sub_cancel_right, tw, hn, if_false, cw]
        split_ifs <;> [exact le_rfl; positivity])
    rw [total_tw hC h] at hs
    have hz : chainSum M (only (tw w L) n0 i0 j0 0) = 0 := by
      refine sum_eq_zero fun y _ => prod_eq_zero (mem_univ (⟨n0, hn0⟩ : Fin M)) ?_
      simp [only]
    rw [hzero, ← hz]
    exact ratio_sandwich hZ hle hz.ge (by rw [hz]; exact hZ.le) hs.1 hs.2

/-- How much the stand-in can add to the log of the total, when the weights that are not 0 are between `exp (-B)` and `exp B`. -/
theorem gap_le (hC : 0 < C) (hw : ∀ n i j, 0 ≤ w n i j) (z B : ℝ) (h : L ≤ M)
    (hB : ∀ n < L, ∀ i j, w n i j = 0 ∨ (Real.exp (-B) ≤ w n i j ∧ w n i j ≤ Real.exp B)) (hZ : 0 < chainSum L w) :
    Real.log (chainSum M (fun n i j => cw z L n i j + lw z w L n i j)) - Real.log (chainSum L w) ≤
      ((M - L : ℕ) : ℝ) * ((2 * C - 1 : ℕ) * Real.exp z) + L * Real.exp (z + B) +
        (C : ℝ) ^ (L + 1) * (Real.exp B + Real.exp z) ^ (L - 1) * Real.exp (z + B * L) := by
  set ζ := Real.exp z with hζ
  have hζ0 : 0 < ζ := Real.exp_pos z
  have hs0 : ∀ y : Tags L C, 0 ≤ seqProd w y := fun y => prod_nonneg fun n _ => hw _ _ _
  -- a path of positive weight
  obtain ⟨y0, hy0⟩ : ∃ y : Tags L C, seqProd w y ≠ 0 := by
    by_contra hc
    push Not at hc
    exact hZ.ne' (sum_eq_zero fun y _ => hc y)
  have hlow : Real.exp (-(B * L)) ≤ chainSum L w := by
    refine le_trans ?_ (single_le_sum (f := fun y : Tags L C => seqProd w y) (fun y _ => hs0 y) (mem_univ y0))
    have : Real.exp (-(B * L)) = ∏ _n : Fin L, Real.exp (-B) := by
      rw [prod_const, card_univ, Fintype.card_fin, ← Real.exp_nat_mul]; congr 1; ring
    rw [this]
    refine prod_le_prod (fun _ _ => (Real.exp_pos _).le) fun n _ => ?_
    have hne : w n (y0 n.succ) (y0 n.castSucc) ≠ 0 := fun hc => hy0 (prod_eq_zero (mem_univ n) hc)
    exact ((hB n n.2 _ _).resolve_left hne).1
  -- every path
  have hpath : ∀ y : Tags L C, seqProd (fun n i j => w n i j + ζ) y ≤
      seqProd w y * Real.exp (L * Real.exp (z + B)) + ζ * (Real.exp B + ζ) ^ (L - 1) := by
    intro y
    by_cases hy : ∀ n : Fin L, w n (y n.succ) (y n.castSucc) ≠ 0
    · refine le_trans ?_ (le_add_of_nonneg_right (by positivity))
      rw [seqProd, seqProd, Real.exp_nat_mul, ← Fin.prod_const, ← prod_mul_distrib]
      refine prod_le_prod (fun _ _ => add_nonneg (hw _ _ _) hζ0.le) fun n _ => ?_
      have hb := ((hB n n.2 _ _).resolve_left (hy n)).1
      have e1 : ζ ≤ w n (y n.succ) (y n.castSucc) * Real.exp (z + B) := by
        have : ζ = Real.exp (-B) * Real.exp (z + B) := by rw [hζ, ← Real.exp_add]; congr 1; ring
        rw [this]
        exact mul_le_mul_of_nonneg_right hb (Real.exp_pos _).le
      have e2 := Real.add_one_le_exp (Real.exp (z + B))
      nlinarith [hw n (y n.succ) (y n.castSucc)]
    · push Not at hy
      obtain ⟨n1, h1⟩ := hy
      refine le_trans ?_ (le_add_of_nonneg_left (mul_nonneg (hs0 y) (Real.exp_pos _).le))
      rw [seqProd, ← mul_prod_erase univ _ (mem_univ n1), h1, zero_add]
      refine mul_le_mul_of_nonneg_left ?_ hζ0.le
      have hc : (univ.erase n1).card = L - 1 := by rw [card_erase_of_mem (mem_univ _), card_univ, Fintype.card_fin]
      rw [← hc, ← prod_const]
      refine prod_le_prod (fun _ _ => add_nonneg (hw _ _ _) hζ0.le) fun n _ => ?_
      have : w n (y n.succ) (y n.castSucc) ≤ Real.exp B := by
        rcases hB n n.2 (y n.succ) (y n.castSucc) with hz | hz
        · rw [hz]; exact (Real.exp_pos B).le
        · exact hz.2
      linarith
  have hsum : chainSum L (fun n i j => w n i j + ζ) ≤ chainSum L w * Real.exp (L * Real.exp (z + B)) +
      (C : ℝ) ^ (L + 1) * (ζ * (Real.exp B + ζ) ^ (L - 1)) := by
    refine (sum_le_sum fun y _ => hpath y).trans_eq ?_
    rw [sum_add_distrib, ← sum_mul, sum_const, card_univ]
    simp [chainSum, Fintype.card_pi]
  set X := (C : ℝ) ^ (L + 1) * (Real.exp B + ζ) ^ (L - 1) * Real.exp (z + B * L) with hX
  have hX0 : 0 ≤ X := by positivity
  have hrest : (C : ℝ) ^ (L + 1) * (ζ * (Real.exp B + ζ) ^ (L - 1)) ≤ chainSum L w * X := by
    have e : (C : ℝ) ^ (L + 1) * (ζ * (Real.exp B + ζ) ^ (L - 1)) = Real.exp (-(B * L)) * X := by
      rw [hX, hζ]
      have : Real.exp z = Real.exp (-(B * L)) * Real.exp (z + B * L) := by rw [← Real.exp_add]; congr 1; ring
      calc _ = (C : ℝ) ^ (L + 1) * ((Real.exp (-(B * L)) * Real.exp (z + B * L)) * (Real.exp B + Real.exp z) ^ (L - 1)) := by rw [← this]
        _ = _ := by ring
    rw [e]
    exact mul_le_mul_of_nonneg_right hlow hX0
  have hsum' : chainSum L (fun n i j => w n i j + ζ) ≤ chainSum L w * Real.exp (L * Real.exp (z + B) + X) := by
    refine hsum.trans ((add_le_add_right hrest _).trans ?_)
    rw [← mul_add]
    refine mul_le_mul_of_nonneg_left ?_ hZ.le
    rw [Real.exp_add (L * Real.exp (z + B)) X]
    have e1 := Real.add_one_le_exp X
    have e2 : 1 ≤ Real.exp (L * Real.exp (z + B)) := Real.one_le_exp (by positivity)
    generalize Real.exp (L * Real.exp (z + B)) = E at e2 ⊢
    nlinarith
  have hpad : (1 + (2 * C - 1 : ℕ) * ζ) ^ (M - L) ≤ Real.exp (((M - L : ℕ) : ℝ) * ((2 * C - 1 : ℕ) * ζ)) := by
    rw [Real.exp_nat_mul]
    refine pow_le_pow_left₀ (by positivity) ?_ _
    have := Real.add_one_le_exp ((2 * C - 1 : ℕ) * ζ)
    linarith
  have hpos := total_pos (M := M) (L := L) hC hw z
  have hall : chainSum M (fun n i j => cw z L n i j + lw z w L n i j) ≤
      chainSum L w * Real.exp (((M - L : ℕ) : ℝ) * ((2 * C - 1 : ℕ) * ζ) + L * Real.exp (z + B) + X) := by
    rw [total_w hC z h, add_assoc, Real.exp_add]
    calc _ ≤ Real.exp (((M - L : ℕ) : ℝ) * ((2 * C - 1 : ℕ) * ζ)) * (chainSum L w * Real.exp (L * Real.exp (z + B) + X)) :=
          mul_le_mul hpad hsum' (chainSum_nonneg fun _ _ _ _ => add_nonneg (hw _ _ _) hζ0.le) (Real.exp_pos _).le
      _ = _ := by ring
  have := Real.log_le_log hpos hall
  rw [Real.log_mul hZ.ne' (Real.exp_pos _).ne', Real.log_exp] at this
  linarith

end weights

end ChainBackwardProofs
