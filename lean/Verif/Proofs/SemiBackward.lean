import Verif.Model.SemiBackward
import Verif.Proofs.ChainBackward
import Verif.Proofs.SemiMarkov

/-! The backward pass of `SemiMarkovCRF.marginals` in closed form.  No entry of the chart is `-inf`, so every factor is a quotient of positive weights. -/

open Finset Spec LinearChain ChainProofs ChainBounds
open TreeBackwardProofs (LogOf)
open ChainBackward (sr scanBack stepBack addAll)
open ChainBackwardProofs

noncomputable section
namespace SemiBackwardProofs

/-! ### Products of matrices are linear in each factor -/

section linear
variable {m : ℕ}

theorem segProd_congr {w w' : ℕ → Fin m → Fin m → ℝ} {M : ℕ} (h : ∀ n < M, ∀ i j, w n i j = w' n i j) : segProd w 0 M = segProd w' 0 M := by
  induction M with
  | zero => rfl
  | succ M ih =>
    simp only [segProd, Nat.zero_add]
    rw [ih fun n hn => h n (by omega)]
    congr 1
    funext i j
    exact h M (by omega) i j

theorem only_self (w : ℕ → Fin m → Fin m → ℝ) (n0 : ℕ) (i0 j0 : Fin m) (v : ℝ) (i j : Fin m) : only w n0 i0 j0 v n0 i j = if i = i0 ∧ j = j0 then v else 0 :=
  if_pos rfl

theorem segProd_at (w : ℕ → Fin m → Fin m → ℝ) {M n0 : ℕ} (hn : n0 < M) (X : Fin m → Fin m → ℝ) (r s : Fin m) :
    segProd (fun n i j => if n = n0 then X i j else w n i j) 0 M r s = ∑ i, ∑ j, X i j * segProd (only w n0 i j 1) 0 M r s := by
  induction M generalizing r with
  | zero => omega
  | succ M ih =>
    simp only [segProd, Nat.zero_add, Matrix.mul_apply, Matrix.of_apply]
    rcases Nat.lt_succ_iff_lt_or_eq.1 hn with h | rfl
    · simp only [show ¬ M = n0 by omega, if_false, only]
      simp only [ih h, only, mul_sum]
      rw [sum_comm]
      refine sum_congr rfl fun i _ => ?_
      rw [sum_comm]
      refine sum_congr rfl fun j _ => sum_congr rfl fun k _ => by ring
    · simp only [if_true, only_self]
      have e : ∀ X : Fin m → Fin m → ℝ, segProd (fun n i j => if n = n0 then X i j else w n i j) 0 n0 = segProd w 0 n0 := fun X =>
        segProd_congr fun n hn i j => if_neg (by omega)
      have e' : ∀ i j : Fin m, segProd (only w n0 i j 1) 0 n0 = segProd w 0 n0 := fun i j => e _
      simp only [e, e']
      symm
      rw [sum_eq_single r]
      · refine sum_congr rfl fun j _ => ?_
        rw [sum_eq_single j]
        · simp
        · intro k _ hk; simp [hk]
        · simp
      · intro i _ hi
        refine sum_eq_zero fun j _ => ?_
        rw [sum_eq_zero fun k _ => ?_, mul_zero]
        rw [if_neg fun h => hi h.1.symm, zero_mul]
      · simp

/-- The total weight of the paths, where `E i j` is the weight of ending in `i` after starting in `j`. -/
def pathSum (E : Fin m → Fin m → ℝ) (M : ℕ) (w : ℕ → Fin m → Fin m → ℝ) : ℝ := ∑ r, ∑ s, E r s * segProd w 0 M r s

variable {E : Fin m → Fin m → ℝ}

theorem pathSum_congr {w w' : ℕ → Fin m → Fin m → ℝ} {M : ℕ} (h : ∀ n < M, ∀ i j, w n i j = w' n i j) : pathSum E M w = pathSum E M w' := by
  simp only [pathSum, segProd_congr h]

theorem pathSum_at (w : ℕ → Fin m → Fin m → ℝ) {M n0 : ℕ} (hn : n0 < M) (X : Fin m → Fin m → ℝ) :
    pathSum E M (fun n i j => if n = n0 then X i j else w n i j) = ∑ i, ∑ j, X i j * pathSum E M (only w n0 i j 1) := by
  simp only [pathSum, segProd_at w hn, mul_sum]
  rw [sum_congr rfl fun r _ => sum_comm]
  rw [sum_comm]
  refine sum_congr rfl fun i _ => ?_
  rw [sum_congr rfl fun r _ => sum_comm]
  rw [sum_congr rfl fun j _ => rfl, sum_comm]
  refine sum_congr rfl fun j _ => sum_congr rfl fun r _ => sum_congr rfl fun s _ => by ring

theorem pathSum_entry (w : ℕ → Fin m → Fin m → ℝ) {M n0 : ℕ} (hn : n0 < M) (i j : Fin m) (v : ℝ) :
    pathSum E M (only w n0 i j v) = v * pathSum E M (only w n0 i j 1) := by
  have := pathSum_at (E := E) w hn fun i' j' => if i' = i ∧ j' = j then v else 0
  rw [show (fun n i' j' => if n = n0 then (if i' = i ∧ j' = j then v else 0) else w n i' j') = only w n0 i j v from rfl] at this
  rw [this, sum_eq_single i, sum_eq_single j]
  · simp
  · intro j' _ hj; simp [hj]
  · simp
  · intro i' _ hi; simp [hi]
  · simp

theorem pathSum_pairs (w : ℕ → Fin m → Fin m → ℝ) (M : ℕ) : pathSum E (2 * M) w = pathSum E M (pairs w) := by
  simp only [pathSum, segProd_pairs]

/-- The path sum through an entry of a left operand. -/
theorem through_left (w : ℕ → Fin m → Fin m → ℝ) {M n : ℕ} (hn : n < M) (i j : Fin m) :
    pathSum E (2 * M) (only w (2 * n + 1) i j 1) = ∑ c, w (2 * n) j c * pathSum E M (only (pairs w) n i c 1) := by
  rw [pathSum_pairs]
  have := pathSum_at (E := E) (pairs w) hn fun i' j' => if i' = i then w (2 * n) j j' else 0
  rw [sum_eq_single i (fun i' _ hi => by simp [hi]) (by simp)] at this
  simp only [if_true] at this
  rw [← this]
  refine pathSum_congr fun n' _ i' j' => ?_
  simp only [pairs, only]
  by_cases h : n' = n
  · subst h
    simp only [if_true, show ¬ 2 * n' = 2 * n' + 1 by omega, if_false]
    by_cases hi : i' = i
    · simp [hi]
    · simp [hi]
  · simp only [h, if_false, show ¬ 2 * n' + 1 = 2 * n + 1 by omega, show ¬ 2 * n' = 2 * n + 1 by omega]

/-- The path sum through an entry of a right operand. -/
theorem through_right (w : ℕ → Fin m → Fin m → ℝ) {M n : ℕ} (hn : n < M) (i j : Fin m) :
    pathSum E (2 * M) (only w (2 * n) i j 1) = ∑ r, w (2 * n + 1) r i * pathSum E M (only (pairs w) n r j 1) := by
  rw [pathSum_pairs]
  have := pathSum_at (E := E) (pairs w) hn fun i' j' => if j' = j then w (2 * n + 1) i' i else 0
  simp only [ite_mul, zero_mul, sum_ite_eq', mem_univ, if_true] at this
  rw [← this]
  refine pathSum_congr fun n' _ i' j' => ?_
  simp only [pairs, only]
  by_cases h : n' = n
  · subst h
    simp only [if_true, show ¬ 2 * n' + 1 = 2 * n' by omega, if_false]
    by_cases hj : j' = j
    · simp [hj]
    · simp [hj]
  · simp only [h, if_false, show ¬ 2 * n' + 1 = 2 * n by omega, show ¬ 2 * n' = 2 * n by omega]

/-- The scan backwards, from a gradient that is the share of each final entry. -/
theorem scanBack_eq {σ : Slope} (hσ : Shares σ) (z : ℝ) (hm : 0 < m) (Z : ℝ) (k : ℕ) : ∀ (chart : ℕ → Fin m → Fin m → EReal)
    (w : ℕ → Fin m → Fin m → ℝ) (g : Fin m → Fin m → IEEE), (∀ n < 2 ^ k, ∀ i j, 0 < w n i j) → (∀ n < 2 ^ k, ∀ i j, LogOf (chart n i j) (w n i j)) →
    (∀ i j, g i j = IEEE.ofReal (E i j * segProd w 0 (2 ^ k) i j / Z)) → ∀ n < 2 ^ k, ∀ i j,
    scanBack σ (sr z) k chart g n i j = IEEE.ofReal (w n i j * pathSum E (2 ^ k) (only w n i j 1) / Z) := by
  induction k with
  | zero =>
    intro chart w g _ _ hg n hn i j
    obtain rfl : n = 0 := by simpa using hn
    simp only [scanBack, if_true]
    rw [hg, ← pathSum_entry w (by simp), pathSum]
    congr 2
    have : ∀ (A : ℕ → Fin m → Fin m → ℝ) i j, segProd A 0 (2 ^ 0) i j = A 0 i j := fun A i j => by simp [segProd]
    simp only [this, only, if_true]
    rw [sum_eq_single i (fun i' _ hi => by simp [hi]) (by simp), sum_eq_single j (fun j' _ hj => by simp [hj]) (by simp)]
    simp
  | succ k ih =>
    intro chart w g hw hc hg n hn i j
    have e2 : 2 ^ (k + 1) = 2 * 2 ^ k := by ring
    rw [e2] at hw hc hn
    have hp := pairs_pos hm hw
    have hl := scanStep_logOf z hm hc
    have IH := ih (scanStep (sr z) chart) (pairs w) g hp hl (fun i j => by rw [hg, e2, segProd_pairs])
    rw [scanBack, stepBack, e2]
    rcases Nat.mod_two_eq_zero_or_one n with h | h
    · obtain ⟨q, rfl⟩ : ∃ q, n = 2 * q := ⟨n / 2, by omega⟩
      have hq : q < 2 ^ k := by omega
      rw [if_neg (by omega), show 2 * q / 2 = q by omega, through_right w hq, mul_sum, sum_div, ← addAll_real]
      congr 2
      funext r
      rw [IH q hq, hσ ((logOf_rel z).mul (hc _ (by omega) r i) (hc _ (by omega) i j)) (hl q hq r j) (hp q hq r j).ne', IEEE.mul_real]
      congr 1
      have := (hp q hq r j).ne'
      field_simp
    · obtain ⟨q, rfl⟩ : ∃ q, n = 2 * q + 1 := ⟨n / 2, by omega⟩
      have hq : q < 2 ^ k := by omega
      rw [if_pos h, show (2 * q + 1) / 2 = q by omega, show 2 * q + 1 - 1 = 2 * q by omega, through_left w hq, mul_sum, sum_div, ← addAll_real]
      congr 2
      funext c
      rw [IH q hq, hσ ((logOf_rel z).mul (hc _ (by omega) i j) (hc _ (by omega) j c)) (hl q hq i c) (hp q hq i c).ne', IEEE.mul_real]
      congr 1
      have := (hp q hq i c).ne'
      field_simp

end linear

/-! ### The chart of a row -/

open SemiMarkovProofs Generic

theorem tame (z : ℝ) : Tame (sr z) LogOf (Real.exp z) 1 := by
  have h1 := logOf_exp z
  have h2 : LogOf 0 1 := by simpa using logOf_exp 0
  constructor <;> intros <;> first | exact h1 | exact h2 | assumption

section row
variable {K1 C : ℕ}

/-- The entries that line 86 reads. -/
def ends (i j : Fin (K1 * C)) : ℝ := if (i.divNat : ℕ) = 0 ∧ (j.divNat : ℕ) = 0 then 1 else 0

theorem state_zero (hK : 0 < K1) (c : Fin C) (h : (c : ℕ) < K1 * C) : state ⟨0, hK⟩ c = ⟨c, h⟩ := by
  apply Fin.ext
  simp [state, finProdFinEquiv]

theorem pathSum_ends (hK : 0 < K1) (M : ℕ) (w : ℕ → Fin (K1 * C) → Fin (K1 * C) → ℝ) :
    pathSum ends M w = ∑ i : Fin C, ∑ j : Fin C, segProd w 0 M (state ⟨0, hK⟩ i) (state ⟨0, hK⟩ j) := by
  rw [pathSum, sum_states, sum_eq_single ⟨0, hK⟩]
  · refine sum_congr rfl fun i _ => ?_
    rw [sum_states, sum_eq_single ⟨0, hK⟩]
    · refine sum_congr rfl fun j _ => ?_
      simp [ends]
    · intro k _ hk
      refine sum_eq_zero fun j _ => ?_
      have : ¬ (k : ℕ) = 0 := fun h => hk (Fin.ext h)
      simp [ends, this]
    · simp
  · intro k _ hk
    refine sum_eq_zero fun i _ => sum_eq_zero fun j _ => ?_
    have : ¬ (k : ℕ) = 0 := fun h => hk (Fin.ext h)
    simp [ends, this]
  · simp

theorem totalBack_eq {σ : Slope} (hσ : Shares σ) (z : ℝ) (hK : 0 < K1) (hC : 0 < C) {x : Fin (K1 * C) → Fin (K1 * C) → EReal}
    {w : Fin (K1 * C) → Fin (K1 * C) → ℝ} (hw : ∀ i j, 0 < w i j) (h : ∀ i j, LogOf (x i j) (w i j)) (i j : Fin (K1 * C)) :
    SemiBackward.totalBack σ (sr z) C hK x i j =
      IEEE.ofReal (ends i j * w i j / ∑ i : Fin C, ∑ j : Fin C, w (state ⟨0, hK⟩ i) (state ⟨0, hK⟩ j)) := by
  have : Nonempty (Fin C) := ⟨⟨0, hC⟩⟩
  have hst : ∀ c : Fin C, (⟨c, Nat.lt_of_lt_of_le c.2 (Nat.le_mul_of_pos_left C hK)⟩ : Fin (K1 * C)) = state ⟨0, hK⟩ c := fun c => (state_zero hK c _).symm
  have hr : ∀ i, LogOf ((sr z).sum (List.ofFn fun j => x (state ⟨0, hK⟩ i) (state ⟨0, hK⟩ j))) (∑ j : Fin C, w (state ⟨0, hK⟩ i) (state ⟨0, hK⟩ j)) :=
    fun i => (logOf_rel z).sum_ofFn hC fun j => h _ _
  have hr0 : ∀ i : Fin C, 0 < ∑ j : Fin C, w (state ⟨0, hK⟩ i) (state ⟨0, hK⟩ j) := fun i => sum_pos (fun j _ => hw _ _) univ_nonempty
  have ht := (logOf_rel z).sum_ofFn hC hr
  have ht0 : 0 < ∑ i : Fin C, ∑ j : Fin C, w (state ⟨0, hK⟩ i) (state ⟨0, hK⟩ j) := sum_pos (fun i _ => hr0 i) univ_nonempty
  simp only [SemiBackward.totalBack, hst]
  have hd : ∀ i : Fin (K1 * C), (i.divNat : ℕ) = 0 ↔ (i : ℕ) < C := fun i => by
    rw [Fin.coe_divNat, Nat.div_eq_zero_iff]; omega
  by_cases hij : (i : ℕ) < C ∧ (j : ℕ) < C
  · rw [dif_pos hij, ends, if_pos ⟨(hd i).2 hij.1, (hd j).2 hij.2⟩]
    have ei : state ⟨0, hK⟩ (⟨i, hij.1⟩ : Fin C) = i := state_zero hK _ i.2
    have ej : state ⟨0, hK⟩ (⟨j, hij.2⟩ : Fin C) = j := state_zero hK _ j.2
    have hri := hr ⟨i, hij.1⟩
    have hr0i := hr0 ⟨i, hij.1⟩
    rw [ei] at hri hr0i
    simp only [Fin.eta]
    rw [hσ hri ht ht0.ne', hσ (h i j) hri hr0i.ne', IEEE.mul_real, IEEE.mul_real]
    congr 1
    have := hr0i.ne'
    field_simp
  · rw [dif_neg hij, ends, if_neg fun hc => hij ⟨(hd i).1 hc.1, (hd j).1 hc.2⟩]
    simp

/-- The weights without the entry `e`. -/
def without (e : List ℕ) (f : List ℕ → ℝ) (e' : List ℕ) : ℝ := if e' = e then 0 else f e'

/-- The weights of the chart. -/
def cw (K1 C N L b : ℕ) (z : ℝ) (wp wm : List ℕ → ℝ) (n : ℕ) (i j : Fin (K1 * C)) : ℝ :=
  ((cell K1 C N L b n i j).map (Atom.weight wp wm (Real.exp z) 1)).sum

/-- An entry of the potentials is a summand of exactly one entry of the chart. -/
theorem cw_without {N L b : ℕ} (hK : 0 < K1) (z : ℝ) (wp wm : List ℕ → ℝ) {n0 : ℕ} (hn0 : n0 < N - 1) (k1 : Fin K1) (c1 c2 : Fin C)
    (n : ℕ) (i j : Fin (K1 * C)) :
    let e := entry b (n0, (k1 : ℕ) + 1, c1, c2)
    cw K1 C N L b z wp wm n i j = cw K1 C N L b z (without e wp) (without e wm) n i j +
      if n = n0 ∧ i = state k1 c1 ∧ j = state ⟨0, hK⟩ c2 then (if n0 < L then wp e else wm e) else 0 := by
  intro e
  by_cases hc : n = n0 ∧ i = state k1 c1 ∧ j = state ⟨0, hK⟩ c2
  · obtain ⟨rfl, rfl, rfl⟩ := hc
    rw [if_pos ⟨rfl, rfl, rfl⟩]
    simp only [cw, cell, divNat_state, modNat_state, if_true, hn0]
    split_ifs <;> simp [Atom.weight, without, e]
  · rw [if_neg hc, add_zero]
    have key : (j.divNat : ℕ) = 0 → entry b (n, (i.divNat : ℕ) + 1, i.modNat, j.modNat) ≠ e := by
      intro hj he
      have := entry_injective b he
      simp only [Prod.mk.injEq, add_left_inj] at this
      obtain ⟨h1, h2, h3, h4⟩ := this
      refine hc ⟨h1, ?_, ?_⟩
      · rw [← h3, ← Fin.ext h2]; exact (finProdFinEquiv.apply_symm_apply i).symm
      · have : j.divNat = ⟨0, hK⟩ := Fin.ext hj
        rw [← h4, ← this]; exact (finProdFinEquiv.apply_symm_apply j).symm
    unfold cw cell
    by_cases hj : (j.divNat : ℕ) = 0
    · have hk := key hj
      simp only [hj, if_true, List.map_cons, List.map_nil, List.sum_cons, List.sum_nil]
      split_ifs <;> simp only [Atom.weight, without, if_neg hk]
    · simp only [hj, if_false]
      split_ifs <;> simp [Atom.weight]

theorem cw_pos {N L b : ℕ} (z : ℝ) {wp wm : List ℕ → ℝ} (hp : ∀ e, 0 ≤ wp e) (hm : ∀ e, 0 ≤ wm e) (n : ℕ) (i j : Fin (K1 * C)) :
    0 < cw K1 C N L b z wp wm n i j := by
  have h1 := Real.exp_pos z
  unfold cw cell
  split_ifs <;> simp only [List.map_cons, List.map_nil, List.sum_cons, List.sum_nil, Atom.weight] <;>
    first | positivity | (refine add_pos_of_pos_of_nonneg (by positivity) (add_nonneg ?_ le_rfl); first | exact hp _ | exact hm _ | positivity)

theorem pathSum_diff {N L b M : ℕ} (hK : 0 < K1) (z : ℝ) (wp wm : List ℕ → ℝ) {n0 : ℕ} (hn0 : n0 < N - 1) (hM : n0 < M) (k1 : Fin K1) (c1 c2 : Fin C) :
    let e := entry b (n0, (k1 : ℕ) + 1, c1, c2)
    let W := cw K1 C N L b z wp wm
    pathSum ends M W - pathSum ends M (cw K1 C N L b z (without e wp) (without e wm)) =
      (if n0 < L then wp e else wm e) * pathSum ends M (only W n0 (state k1 c1) (state ⟨0, hK⟩ c2) 1) := by
  intro e W
  set W' := cw K1 C N L b z (without e wp) (without e wm) with hW'
  have hd := cw_without (L := L) (b := b) hK z wp wm hn0 k1 c1 c2
  have e1 : pathSum ends M W = ∑ i, ∑ j, W n0 i j * pathSum ends M (only W n0 i j 1) := by
    rw [← pathSum_at W hM]
    refine pathSum_congr fun n _ i j => ?_
    split_ifs with h
    · rw [h]
    · rfl
  have e2 : pathSum ends M W' = ∑ i, ∑ j, W' n0 i j * pathSum ends M (only W n0 i j 1) := by
    rw [← pathSum_at W hM]
    refine pathSum_congr fun n _ i j => ?_
    split_ifs with h
    · rw [h]
    · have := hd n i j
      simp only [h, false_and, if_false, add_zero] at this
      exact this.symm
  rw [e1, e2, ← sum_sub_distrib, sum_eq_single (state k1 c1)]
  · rw [← sum_sub_distrib, sum_eq_single (state ⟨0, hK⟩ c2)]
    · have := hd n0 (state k1 c1) (state ⟨0, hK⟩ c2)
      simp only [true_and, if_true, and_self] at this
      rw [← sub_mul]
      congr 1
      change W n0 _ _ = W' n0 _ _ + _ at this
      rw [this, add_sub_cancel_left]
    · intro j _ hj
      have := hd n0 (state k1 c1) j
      simp only [hj, and_false, if_false, add_zero] at this
      change W n0 _ _ = W' n0 _ _ at this
      rw [this, sub_self]
    · simp
  · intro i _ hi
    rw [← sum_sub_distrib]
    refine sum_eq_zero fun j _ => ?_
    have := hd n0 i j
    simp only [hi, false_and, and_false, if_false, add_zero] at this
    change W n0 _ _ = W' n0 _ _ at this
    rw [this, sub_self]
  · simp

/-- The gradient is the share of the paths that take the segment through the potentials. -/
theorem rowBack_eq {σ : Slope} (hσ : Shares σ) (z : ℝ) (hK : 0 < K1) (hC : 0 < C) {N logN : ℕ} (hN : N - 1 ≤ 2 ^ logN) {lens : ℕ → ℕ} {b : ℕ}
    (hl : lens b ≤ N) {x : List ℕ → EReal} {wp : List ℕ → ℝ} (hp : ∀ e, LogOf (x e) (wp e)) {n : ℕ} (hn : n < N - 1) (k1 : Fin K1) (c1 c2 : Fin C) :
    let e := entry b (n, (k1 : ℕ) + 1, c1, c2)
    let wm : List ℕ → ℝ := fun _ => Real.exp z
    let Z := pathSum ends (2 ^ logN) (cw K1 C N (lens b - 1) b z wp wm)
    SemiBackward.rowBack σ (sr z) C hK N logN lens (fun b n k c c' => x [b, n, k, c, c']) b n k1 c1 c2 =
      IEEE.ofReal ((Z - pathSum ends (2 ^ logN) (cw K1 C N (lens b - 1) b z (without e wp) (without e wm))) / Z) := by
  intro e wm Z
  have hm : 0 < K1 * C := Nat.mul_pos hK hC
  have hz0 : ∀ e, (0 : ℝ) ≤ wm e := fun _ => (Real.exp_pos z).le
  have hW := cw_pos (K1 := K1) (C := C) (N := N) (L := lens b - 1) (b := b) z (fun e => (hp e).1) hz0
  have hchart : ∀ n < 2 ^ logN, ∀ i j, LogOf (SemiMarkov.chart (sr z) K1 C N (2 ^ logN) lens (fun b n k c c' => x [b, n, k, c, c']) b n i j)
      (cw K1 C N (lens b - 1) b z wp wm n i j) := fun n hn i j =>
    chart_rel (logOf_rel z) (tame z) lens (by omega) x (fun _ _ _ _ _ _ => hp _) (fun _ => logOf_exp z) hn i j
  have hn' : n < 2 ^ logN := by omega
  have htop := scan_logOf z hm logN hchart
  have hseg : ∀ i j, 0 < segProd (cw K1 C N (lens b - 1) b z wp wm) 0 (2 ^ logN) i j := by
    obtain ⟨m, hm'⟩ : ∃ m, 2 ^ logN = m + 1 := ⟨2 ^ logN - 1, by have := Nat.one_le_two_pow (n := logN); omega⟩
    rw [hm']
    exact segProd_pos hm fun n _ => hW n
  have hg := totalBack_eq hσ z hK hC hseg htop
  rw [← pathSum_ends hK] at hg
  have hent : LogOf (SemiBackward.entry (sr z) N (lens b) (fun n k c c' => x [b, n, k, c, c']) n (k1 + 1) c1 c2)
      (if n < lens b - 1 then wp e else wm e) := by
    simp only [SemiBackward.entry, SR.fill]
    by_cases h : n < lens b - 1
    · rw [if_pos h, if_neg (by rw [decide_eq_true_eq]; omega), if_pos hn]
      exact hp _
    · rw [if_neg h, if_pos (by rw [decide_eq_true_eq]; omega)]
      exact logOf_exp z
  have hwr : SemiMarkov.written (sr z) N (2 ^ logN) lens (fun b n k c c' => x [b, n, k, c, c']) b n k1 0 c1 c2 =
      SemiMarkov.chart (sr z) K1 C N (2 ^ logN) lens (fun b n k c c' => x [b, n, k, c, c']) b n (state k1 c1) (state ⟨0, hK⟩ c2) := by
    simp [SemiMarkov.chart, SemiMarkov.decremented, SR.fill]
  rw [pathSum_diff hK z wp wm hn hn' k1 c1 c2]
  rw [SemiBackward.rowBack]
  rw [hwr, hσ hent (hchart n hn' _ _) (hW n _ _).ne']
  have := scanBack_eq hσ z hm Z logN _ _ _ (fun n _ => hW n) hchart hg n hn' (state k1 c1) (state ⟨0, hK⟩ c2)
  rw [show scanBack σ (sr z) logN _ _ n (finProdFinEquiv (k1, c1)) (finProdFinEquiv (⟨0, hK⟩, c2)) = _ from this, IEEE.mul_real]
  congr 1
  have := (hW n (state k1 c1) (state ⟨0, hK⟩ c2)).ne'
  field_simp
  rfl

/-- The value of a row. -/
theorem core_logOf (z : ℝ) (hK : 0 < K1) (hC : 0 < C) {N logN : ℕ} {lens : ℕ → ℕ} {b : ℕ} (hl : lens b ≤ N) {x : List ℕ → EReal} {wp : List ℕ → ℝ}
    (hp : ∀ e, LogOf (x e) (wp e)) : LogOf (SemiMarkov.core (sr z) C hK N logN lens (fun b n k c c' => x [b, n, k, c, c']) b)
      (pathSum ends (2 ^ logN) (cw K1 C N (lens b - 1) b z wp fun _ => Real.exp z)) := by
  rw [pathSum_ends hK]
  have := AtomChain.scan_total_rel (st := state (C := C) (⟨0, hK⟩ : Fin K1)) (logOf_rel z) hC (Nat.mul_pos hK hC) logN
    (SemiMarkov.chart (sr z) K1 C N (2 ^ logN) lens (fun b n k c c' => x [b, n, k, c, c']) b) (cw K1 C N (lens b - 1) b z wp fun _ => Real.exp z)
    fun n hn i j => chart_rel (logOf_rel z) (tame z) lens (by omega) x (fun _ _ _ _ _ _ => hp _) (fun _ => logOf_exp z) hn i j
  convert this using 2
  simp only [SemiMarkov.core, SemiMarkov.total]
  congr 2

theorem logOf_value {v : EReal} {y : ℝ} (h : LogOf v y) (hy : 0 < y) : v = ((Real.log y : ℝ) : EReal) := by
  obtain ⟨x, rfl⟩ : ∃ x : ℝ, v = (x : EReal) := by
    have t1 : v ≠ ⊤ := fun hc => by
      have := h.2
      rw [hc, EReal.exp_top] at this
      exact ENNReal.ofReal_ne_top this.symm
    have t2 : v ≠ ⊥ := fun hc => by
      have := h.2
      rw [hc, EReal.exp_bot] at this
      exact absurd (ENNReal.ofReal_eq_zero.1 this.symm) (not_le.2 hy)
    exact ⟨v.toReal, (EReal.coe_toReal t1 t2).symm⟩
  have h2 := h.2
  rw [EReal.exp_coe, ENNReal.ofReal_eq_ofReal_iff (Real.exp_pos x).le hy.le] at h2
  rw [← h2, Real.log_exp]

/-! ### Paths that are segmentations, and the others -/

variable {N L b M : ℕ}

/-- The total weight of the segmentations. -/
def segSum (K1 C L b : ℕ) (wp : List ℕ → ℝ) : ℝ := ∑ y : Segmentation (K1 + 1) C L, ((segParts b y).map wp).prod

/-- The total weight of the paths that take a stand-in. -/
def phSum (hK : 0 < K1) (C N L b M : ℕ) (z : ℝ) (wp wm : List ℕ → ℝ) : ℝ :=
  ∑ x : AtomChain.Phantom (state (C := C) (⟨0, hK⟩ : Fin K1)) (cell K1 C N L b) M, (x.atoms.map (Atom.weight wp wm (Real.exp z) 1)).prod

theorem split (hK : 0 < K1) (hN : L ≤ N - 1) (hM : L ≤ M) (z : ℝ) (wp wm : List ℕ → ℝ) :
    pathSum ends M (cw K1 C N L b z wp wm) = segSum K1 C L b wp + phSum hK C N L b M z wp wm := by
  have h1 := AtomChain.sum_split (st := state (C := C) (⟨0, hK⟩ : Fin K1)) (cell := cell K1 C N L b) (M := M) wp wm (Real.exp z) 1
  have h2 := real_eq wp (1 : ℝ) (b := b) (C := C) hK hN hM
  simp only [one_pow, mul_one] at h2
  rw [pathSum_ends hK]
  exact h1.trans (congrArg (· + _) h2)

theorem atoms_prod {st : Fin C → Fin (K1 * C)} {cl : ℕ → Fin (K1 * C) → Fin (K1 * C) → List Atom} (x : AtomChain.Phantom st cl M) (w : Atom → ℝ) :
    (x.atoms.map w).prod = ∏ n : Fin M, w (x.1.atom n) := by
  rw [AtomChain.Phantom.atoms, AtomChain.Path.atoms, Multiset.map_map]
  rfl

theorem weight_nonneg {wp wm : List ℕ → ℝ} (hp : ∀ e, 0 ≤ wp e) (hm : ∀ e, 0 ≤ wm e) (z : ℝ) (a : Atom) : 0 ≤ Atom.weight wp wm (Real.exp z) 1 a := by
  cases a
  exacts [hp _, hm _, (Real.exp_pos z).le, zero_le_one]

theorem without_nonneg {f : List ℕ → ℝ} (h : ∀ e, 0 ≤ f e) (e e' : List ℕ) : 0 ≤ without e f e' := by
  unfold without; split_ifs
  exacts [le_rfl, h _]

theorem without_le {f : List ℕ → ℝ} (h : ∀ e, 0 ≤ f e) (e e' : List ℕ) : without e f e' ≤ f e' := by
  unfold without; split_ifs
  exacts [h _, le_rfl]

theorem phSum_nonneg (hK : 0 < K1) (z : ℝ) {wp wm : List ℕ → ℝ} (hp : ∀ e, 0 ≤ wp e) (hm : ∀ e, 0 ≤ wm e) : 0 ≤ phSum hK C N L b M z wp wm := by
  refine sum_nonneg fun x _ => ?_
  rw [atoms_prod]
  exact prod_nonneg fun n _ => weight_nonneg hp hm z _

theorem phSum_without (hK : 0 < K1) (z : ℝ) {wp wm : List ℕ → ℝ} (hp : ∀ e, 0 ≤ wp e) (hm : ∀ e, 0 ≤ wm e) (e : List ℕ) :
    phSum hK C N L b M z (without e wp) (without e wm) ≤ phSum hK C N L b M z wp wm := by
  refine sum_le_sum fun x _ => ?_
  rw [atoms_prod, atoms_prod]
  refine prod_le_prod (fun n _ => weight_nonneg (without_nonneg hp e) (without_nonneg hm e) z _) fun n _ => ?_
  cases x.1.atom n
  exacts [without_le hp e _, without_le hm e _, le_rfl, le_rfl]

theorem parts_nonneg {wp : List ℕ → ℝ} (hp : ∀ e, 0 ≤ wp e) (s : Multiset (List ℕ)) : 0 ≤ (s.map wp).prod :=
  Multiset.prod_nonneg fun a ha => by
    obtain ⟨e, -, rfl⟩ := Multiset.mem_map.1 ha
    exact hp e

theorem parts_without (wp : List ℕ → ℝ) (e : List ℕ) (s : Multiset (List ℕ)) [Decidable (e ∈ s)] :
    (s.map wp).prod - (s.map (without e wp)).prod = if e ∈ s then (s.map wp).prod else 0 := by
  split_ifs with h
  · have : (s.map (without e wp)).prod = 0 := Multiset.prod_eq_zero (Multiset.mem_map.2 ⟨e, h, if_pos rfl⟩)
    rw [this, sub_zero]
  · rw [sub_eq_zero]
    congr 1
    refine Multiset.map_congr rfl fun e' he' => ?_
    exact (if_neg fun hc : e' = e => h (hc ▸ he')).symm

open Classical in
/-- The total weight of the segmentations with a given segment. -/
theorem segSum_without (wp : List ℕ → ℝ) (e : List ℕ) :
    segSum K1 C L b wp - segSum K1 C L b (without e wp) = ∑ y : Segmentation (K1 + 1) C L, if e ∈ segParts b y then ((segParts b y).map wp).prod else 0 := by
  rw [segSum, segSum, ← sum_sub_distrib]
  exact sum_congr rfl fun y _ => parts_without wp e _

theorem segSum_nonneg {wp : List ℕ → ℝ} (hp : ∀ e, 0 ≤ wp e) : 0 ≤ segSum K1 C L b wp := sum_nonneg fun y _ => parts_nonneg hp _

/-- The share of a segment among all paths, and its share among the segmentations. -/
theorem share_near (hK : 0 < K1) (hN : L ≤ N - 1) (hM : L ≤ M) (z : ℝ) {wp wm : List ℕ → ℝ} (hp : ∀ e, 0 ≤ wp e) (hm : ∀ e, 0 ≤ wm e) (e : List ℕ)
    (hZ : 0 < segSum K1 C L b wp) :
    let Z := pathSum ends M (cw K1 C N L b z wp wm)
    let q := (Z - pathSum ends M (cw K1 C N L b z (without e wp) (without e wm))) / Z
    |q - (segSum K1 C L b wp - segSum K1 C L b (without e wp)) / segSum K1 C L b wp| ≤ Real.log Z - Real.log (segSum K1 C L b wp) := by
  intro Z q
  have hp' := without_nonneg hp e
  have hm' := without_nonneg hm e
  have s1 : Z = _ := split (b := b) hK hN hM z wp wm
  have s2 := split (b := b) (C := C) hK hN hM z (without e wp) (without e wm)
  have h1 := phSum_nonneg (C := C) (N := N) (L := L) (b := b) (M := M) hK z hp hm
  have h2 := phSum_nonneg (C := C) (N := N) (L := L) (b := b) (M := M) hK z hp' hm'
  have h3 := phSum_without (C := C) (N := N) (L := L) (b := b) (M := M) hK z hp hm e
  have h4 := segSum_nonneg (K1 := K1) (C := C) (L := L) (b := b) hp'
  have h5 : 0 ≤ segSum K1 C L b wp - segSum K1 C L b (without e wp) := by
    classical
    rw [segSum_without]
    exact sum_nonneg fun y _ => by split_ifs; exacts [parts_nonneg hp _, le_rfl]
  have hle : segSum K1 C L b wp ≤ Z := by linarith
  have hp0 : 0 < Z := hZ.trans_le hle
  have hlog : (Z - segSum K1 C L b wp) / Z ≤ Real.log Z - Real.log (segSum K1 C L b wp) := by
    rw [← Real.log_div hp0.ne' hZ.ne', sub_div, div_self hp0.ne', ← inv_div]
    exact Real.one_sub_inv_le_log_of_pos (div_pos hp0 hZ)
  refine le_trans ?_ hlog
  refine ratio_sandwich hZ hle h5 (by linarith) ?_ ?_ <;> · rw [s1, s2]; linarith

/-- The share of a segment is in `[0, 1]`. -/
theorem share_mem (hK : 0 < K1) (hN : L ≤ N - 1) (hM : L ≤ M) (z : ℝ) {wp wm : List ℕ → ℝ} (hp : ∀ e, 0 ≤ wp e) (hm : ∀ e, 0 ≤ wm e) (e : List ℕ)
    (hZ : 0 < pathSum ends M (cw K1 C N L b z wp wm)) :
    let Z := pathSum ends M (cw K1 C N L b z wp wm)
    let q := (Z - pathSum ends M (cw K1 C N L b z (without e wp) (without e wm))) / Z
    0 ≤ q ∧ q ≤ 1 := by
  intro Z q
  have hp' := without_nonneg hp e
  have hm' := without_nonneg hm e
  have s1 : Z = _ := split (b := b) hK hN hM z wp wm
  have s2 := split (b := b) (C := C) hK hN hM z (without e wp) (without e wm)
  have h2 := phSum_nonneg (C := C) (N := N) (L := L) (b := b) (M := M) hK z hp' hm'
  have h3 := phSum_without (C := C) (N := N) (L := L) (b := b) (M := M) hK z hp hm e
  have h4 := segSum_nonneg (K1 := K1) (C := C) (L := L) (b := b) hp'
  have h5 : 0 ≤ segSum K1 C L b wp - segSum K1 C L b (without e wp) := by
    classical
    rw [segSum_without]
    exact sum_nonneg fun y _ => by split_ifs; exacts [parts_nonneg hp _, le_rfl]
  refine ⟨div_nonneg ?_ hZ.le, (div_le_one hZ).2 ?_⟩
  · rw [s1, s2]; linarith
  · rw [s2]; linarith

theorem total_pos (hK : 0 < K1) (hC : 0 < C) (hM : 0 < M) (z : ℝ) {wp wm : List ℕ → ℝ} (hp : ∀ e, 0 ≤ wp e) (hm : ∀ e, 0 ≤ wm e) :
    0 < pathSum ends M (cw K1 C N L b z wp wm) := by
  have : Nonempty (Fin C) := ⟨⟨0, hC⟩⟩
  obtain ⟨m, rfl⟩ : ∃ m, M = m + 1 := ⟨M - 1, by omega⟩
  rw [pathSum_ends hK]
  exact sum_pos (fun i _ => sum_pos (fun j _ => segProd_pos (Nat.mul_pos hK hC) (fun n _ => cw_pos z hp hm n) _ _) univ_nonempty) univ_nonempty

/-- How much the stand-in can add to the log of the total, when the weights that are not 0 are between `exp (-B)` and `exp B`. -/
theorem gap_le (hK : 0 < K1) (hN : L ≤ N - 1) (hM : L ≤ M) {z B : ℝ} (hz : z ≤ 0) (hB : 0 ≤ B) {wp : List ℕ → ℝ}
    (hw : ∀ n k (c c' : Fin C), n < L → 1 ≤ k → k < K1 + 1 →
      wp (entry b (n, k, c, c')) = 0 ∨ (Real.exp (-B) ≤ wp (entry b (n, k, c, c')) ∧ wp (entry b (n, k, c, c')) ≤ Real.exp B))
    (hp : ∀ e, 0 ≤ wp e) (hZ : 0 < segSum K1 C L b wp) :
    Real.log (pathSum ends M (cw K1 C N L b z wp fun _ => Real.exp z)) - Real.log (segSum K1 C L b wp) ≤
      (C ^ 2 * ((K1 * C) ^ (M + 1) * 2 ^ M) : ℕ) * Real.exp (2 * L * B + z) := by
  have hs := split (b := b) (C := C) hK hN hM z wp fun _ => Real.exp z
  have hm : ∀ e : List ℕ, (0 : ℝ) ≤ (fun _ => Real.exp z) e := fun _ => (Real.exp_pos z).le
  have hph0 := phSum_nonneg (C := C) (N := N) (L := L) (b := b) (M := M) hK z hp hm
  -- the segmentations
  have hlow : Real.exp (-(L * B)) ≤ segSum K1 C L b wp := by
    obtain ⟨y, hy⟩ : ∃ y : Segmentation (K1 + 1) C L, ((segParts b y).map wp).prod ≠ 0 := by
      by_contra hc
      push Not at hc
      exact hZ.ne' (sum_eq_zero fun y _ => hc y)
    refine le_trans ?_ (single_le_sum (f := fun y : Segmentation (K1 + 1) C L => ((segParts b y).map wp).prod) (fun y _ => parts_nonneg hp _) (mem_univ y))
    have hcard := segParts_card b y
    have hall : ∀ e ∈ segParts b y, Real.exp (-B) ≤ wp e := by
      intro e he
      have hne : wp e ≠ 0 := fun h => hy (Multiset.prod_eq_zero (Multiset.mem_map.2 ⟨e, he, h⟩))
      rw [segParts, Multiset.mem_coe, List.mem_map] at he
      obtain ⟨s, hs, rfl⟩ := he
      have h1 := segEdges_mem y.2.1 0 y.1 y.2.2.1 s hs
      have h2 := y.2.2.2
      exact ((hw s.1 s.2.1 s.2.2.1 s.2.2.2 (by omega) h1.2.1 h1.2.2.1).resolve_left hne).1
    have key : ∀ s : Multiset (List ℕ), (∀ e ∈ s, Real.exp (-B) ≤ wp e) → Real.exp (-B) ^ Multiset.card s ≤ (s.map wp).prod := by
      intro s
      induction s using Multiset.induction_on with
      | empty => simp
      | cons a s ih =>
        intro h
        rw [Multiset.card_cons, Multiset.map_cons, Multiset.prod_cons, pow_succ']
        exact mul_le_mul (h a (Multiset.mem_cons_self a s)) (ih fun e he => h e (Multiset.mem_cons_of_mem he)) (by positivity) (hp a)
    refine le_trans ?_ (key _ hall)
    rw [← Real.exp_nat_mul, Real.exp_le_exp]
    have : (Multiset.card (segParts b y) : ℝ) ≤ L := by exact_mod_cast hcard
    nlinarith
  -- the phantoms
  have hup : phSum hK C N L b M z wp (fun _ => Real.exp z) ≤ (C ^ 2 * ((K1 * C) ^ (M + 1) * 2 ^ M) : ℕ) * Real.exp (z + L * B) := by
    have hcell : ∀ n (i j : Fin (K1 * C)) e, Atom.pot e ∈ cell K1 C N L b n i j → n < L ∧ wp e ≤ Real.exp B := by
      intro n i j e he
      unfold cell at he
      have hi := i.divNat.2
      split_ifs at he <;> simp only [List.mem_cons, Atom.pot.injEq, List.not_mem_nil, or_false, reduceCtorEq, false_or] at he
      rename_i h1 h2 h3
      refine ⟨h2, ?_⟩
      rw [he]
      rcases hw n (i.divNat + 1) i.modNat j.modNat h2 (by omega) (by omega) with h | h
      · rw [h]; exact (Real.exp_pos B).le
      · exact h.2
    have h1 : ∀ x : AtomChain.Phantom (state (C := C) (⟨0, hK⟩ : Fin K1)) (cell K1 C N L b) M,
        (x.atoms.map (Atom.weight wp (fun _ => Real.exp z) (Real.exp z) 1)).prod ≤ Real.exp (z + L * B) := by
      intro x
      have h2 := (AtomChain.phScore_le (st := state (C := C) (⟨0, hK⟩ : Fin K1)) (cell := cell K1 C N L b) (M := M) (L := L) (E := fun _ => True) (v := fun _ => B)
        (B := B) (z := z) (fun n i j e hn hc => by have := (hcell n i j e hc).1; omega) (fun _ _ _ _ _ _ => trivial) hB hz
        (fun _ _ => (abs_of_nonneg hB).le) x).1
      refine le_trans ?_ (Real.exp_le_exp.2 h2)
      have e1 : Real.exp (phScore AtomChain.Phantom.atoms z (fun _ => B) x) = ∏ n : Fin M, Real.exp ((x.1.atom n).score z fun _ => B) := by
        rw [← Real.exp_sum]
        congr 1
        unfold phScore AtomChain.Phantom.atoms AtomChain.Path.atoms
        rw [Multiset.map_map]; rfl
      rw [e1, atoms_prod]
      refine prod_le_prod (fun n _ => weight_nonneg hp hm z _) fun n _ => ?_
      have ha := x.1.atom_mem n
      cases e : x.1.atom n with
      | pot e' =>
        rw [e] at ha
        exact (hcell n _ _ e' ha).2
      | masked e' => exact le_rfl
      | zero => exact le_rfl
      | one => simp [Atom.weight, Atom.score]
    have h3 : phSum hK C N L b M z wp (fun _ => Real.exp z) ≤
        (Fintype.card (AtomChain.Phantom (state (C := C) (⟨0, hK⟩ : Fin K1)) (cell K1 C N L b) M) : ℝ) * Real.exp (z + L * B) := by
      refine (sum_le_card_nsmul _ _ _ fun x _ => h1 x).trans_eq ?_
      rw [nsmul_eq_mul, card_univ]
    refine h3.trans (mul_le_mul_of_nonneg_right ?_ (Real.exp_pos _).le)
    exact_mod_cast AtomChain.card_phantom_le (fun n i j => cell_length K1 C N L b n i j)
  set D : ℝ := ((C ^ 2 * ((K1 * C) ^ (M + 1) * 2 ^ M) : ℕ) : ℝ) with hD
  have hD0 : 0 ≤ D := Nat.cast_nonneg _
  have hrel : phSum hK C N L b M z wp (fun _ => Real.exp z) ≤ segSum K1 C L b wp * (D * Real.exp (2 * L * B + z)) := by
    have e : Real.exp (z + L * B) = Real.exp (-(L * B)) * Real.exp (2 * L * B + z) := by rw [← Real.exp_add]; congr 1; ring
    calc _ ≤ D * Real.exp (z + L * B) := hup
      _ = Real.exp (-(L * B)) * (D * Real.exp (2 * L * B + z)) := by rw [e]; ring
      _ ≤ _ := mul_le_mul_of_nonneg_right hlow (by positivity)
  have hpos : 0 < segSum K1 C L b wp + phSum hK C N L b M z wp (fun _ => Real.exp z) := by linarith
  rw [hs]
  have hle : segSum K1 C L b wp + phSum hK C N L b M z wp (fun _ => Real.exp z) ≤ segSum K1 C L b wp * Real.exp (D * Real.exp (2 * L * B + z)) := by
    have := Real.add_one_le_exp (D * Real.exp (2 * L * B + z))
    nlinarith
  have := Real.log_le_log hpos hle
  rw [Real.log_mul hZ.ne' (Real.exp_pos _).ne', Real.log_exp] at this
  linarith

end row

end SemiBackwardProofs
