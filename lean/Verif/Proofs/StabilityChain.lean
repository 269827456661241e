import Verif.Proofs.LinearChainLog
import Verif.Proofs.Stability

/-! Marginals of linear chains with nearby potentials. -/

open Finset Spec ChainProofs LinearChainProofs ChainBounds

noncomputable section
namespace LinearChainLog
variable {C : ℕ}

/-- The marginal of an edge is its share of the sum over all paths. -/
theorem row_share_pos (hC : 0 < C) (z : ℝ) {N logN : ℕ} (hN : N - 1 ≤ 2 ^ logN) (lens : ℕ → ℕ) (p : ℕ → ℕ → Fin C → Fin C → ℝ) (b : ℕ)
    (hl : lens b ≤ N) (n0 : ℕ) (hn0 : n0 < N - 1) (i0 j0 : Fin C) :
    0 < chainSum (2 ^ logN) (fun n (i j : Fin C) => cw z (lens b - 1) n i j + lw z (p b) (lens b - 1) n i j) ∧
    (LinearChain.core (Autograd.logZ z) N logN lens (leafRow p) b).2 [b, n0, i0, j0] =
      chainSum (2 ^ logN) (only (fun n i j => cw z (lens b - 1) n i j + lw z (p b) (lens b - 1) n i j) n0 i0 j0 (lw z (p b) (lens b - 1) n0 i0 j0)) /
        chainSum (2 ^ logN) (fun n i j => cw z (lens b - 1) n i j + lw z (p b) (lens b - 1) n i j) := by
  exact ⟨(chainZ_pos hC (p b) _).trans_le (chainZ_le hC z (p b) _ _ (by omega)), (row_share hC z hN lens p b hl n0 hn0 i0 j0).1⟩

theorem chainSum_scale {M : ℕ} {T W : ℕ → Fin C → Fin C → ℝ} {c : ℕ → ℝ} (h0 : ∀ n < M, ∀ i j, 0 ≤ T n i j)
    (h : ∀ n < M, ∀ i j, T n i j ≤ c n * W n i j) : chainSum M T ≤ (∏ n : Fin M, c n) * chainSum M W := by
  rw [chainSum, chainSum, mul_sum]
  refine sum_le_sum fun y _ => ?_
  rw [seqProd, seqProd, ← prod_mul_distrib]
  exact prod_le_prod (fun n _ => h0 n n.2 _ _) fun n _ => h n n.2 _ _

theorem cw_nonneg (z : ℝ) (L n : ℕ) (i j : Fin C) : 0 ≤ cw z L n i j := by unfold cw; split_ifs <;> positivity

theorem lw_nonneg (z : ℝ) (φ : ℕ → Fin C → Fin C → ℝ) (L n : ℕ) (i j : Fin C) : 0 ≤ lw z φ L n i j := by unfold lw; split_ifs <;> positivity

theorem factors {L M : ℕ} (h : L ≤ M) (δ : ℝ) : ∏ n : Fin M, (if (n : ℕ) < L then Real.exp δ else 1) = Real.exp (L * δ) := by
  rw [Fin.prod_univ_eq_prod_range (fun n => if n < L then Real.exp δ else 1), prod_ite, prod_const_one, mul_one, prod_const, Real.exp_nat_mul]
  congr 1
  have : (range M).filter (· < L) = range L := by ext n; simp only [mem_filter, mem_range]; omega
  rw [this, card_range]

/-- Two rows whose potentials differ by at most `δ`: the shares differ by at most a factor. -/
theorem row_share_le (hC : 0 < C) (z : ℝ) {N logN : ℕ} (hN : N - 1 ≤ 2 ^ logN) (lens : ℕ → ℕ) (p q : ℕ → ℕ → Fin C → Fin C → ℝ) (b : ℕ) (hl : lens b ≤ N) {δ : ℝ} (hδ : 0 ≤ δ)
    (hpq : ∀ n < lens b - 1, ∀ i j, |q b n i j - p b n i j| ≤ δ) (n0 : ℕ) (hn0 : n0 < N - 1) (i0 j0 : Fin C) :
    (LinearChain.core (Autograd.logZ z) N logN lens (leafRow q) b).2 [b, n0, i0, j0] ≤
      Real.exp (2 * ((lens b - 1 : ℕ) * δ)) * (LinearChain.core (Autograd.logZ z) N logN lens (leafRow p) b).2 [b, n0, i0, j0] := by
  obtain ⟨a1, a2⟩ := row_share_pos hC z hN lens p b hl n0 hn0 i0 j0
  obtain ⟨b1, b2⟩ := row_share_pos hC z hN lens q b hl n0 hn0 i0 j0
  set L := lens b - 1 with hL
  set M := 2 ^ logN with hM
  have hLM : L ≤ M := by omega
  have lw_le : ∀ (φ ψ : ℕ → Fin C → Fin C → ℝ), (∀ n < L, ∀ i j, |φ n i j - ψ n i j| ≤ δ) → ∀ n i j, lw z φ L n i j ≤ (if n < L then Real.exp δ else 1) * lw z ψ L n i j := by
    intro φ ψ h n i j
    unfold lw
    split_ifs with hn
    · rw [← Real.exp_add]
      exact Real.exp_le_exp.2 (by have := (abs_le.1 (h n hn i j)).2; linarith)
    · simp
  have cw_le : ∀ n (i j : Fin C), cw z L n i j ≤ (if n < L then Real.exp δ else 1) * cw z L n i j := by
    intro n i j
    refine le_mul_of_one_le_left (cw_nonneg _ _ _ _ _) ?_
    split_ifs
    · exact Real.one_le_exp hδ
    · exact le_rfl
  have h1 := chainSum_scale (M := M) (C := C) (T := fun n i j => cw z L n i j + lw z (p b) L n i j) (W := fun n i j => cw z L n i j + lw z (q b) L n i j)
    (c := fun n => if n < L then Real.exp δ else 1) (fun n _ i j => add_nonneg (cw_nonneg _ _ _ _ _) (lw_nonneg _ _ _ _ _ _)) (fun n _ i j => by
      rw [mul_add]
      exact add_le_add (cw_le n i j) (lw_le _ _ (fun n hn i j => by rw [abs_sub_comm]; exact hpq n hn i j) n i j))
  have h2 := chainSum_scale (M := M) (C := C) (T := only (fun n i j => cw z L n i j + lw z (q b) L n i j) n0 i0 j0 (lw z (q b) L n0 i0 j0))
    (W := only (fun n i j => cw z L n i j + lw z (p b) L n i j) n0 i0 j0 (lw z (p b) L n0 i0 j0))
    (c := fun n => if n < L then Real.exp δ else 1) (fun n _ i j => by
      unfold only; split_ifs
      exacts [lw_nonneg _ _ _ _ _ _, le_rfl, add_nonneg (cw_nonneg _ _ _ _ _) (lw_nonneg _ _ _ _ _ _)]) (fun n _ i j => by
      simp only [only]
      by_cases hn : n = n0
      · rw [if_pos hn, if_pos hn]
        by_cases hij : i = i0 ∧ j = j0
        · rw [if_pos hij, if_pos hij, hn]; exact lw_le _ _ hpq n0 i0 j0
        · rw [if_neg hij, if_neg hij]; simp
      · rw [if_neg hn, if_neg hn, mul_add]
        exact add_le_add (cw_le n i j) (lw_le _ _ hpq n i j))
  rw [factors hLM] at h1 h2
  rw [a2, b2, ← mul_div_assoc, div_le_div_iff₀ b1 a1, two_mul, Real.exp_add]
  refine (mul_le_mul h2 h1 a1.le ?_).trans (le_of_eq (by ring))
  refine mul_nonneg (Real.exp_pos _).le (chainSum_nonneg fun n _ i j => ?_)
  unfold only; split_ifs
  exacts [lw_nonneg _ _ _ _ _ _, le_rfl, add_nonneg (cw_nonneg _ _ _ _ _) (lw_nonneg _ _ _ _ _ _)]

end LinearChainLog
