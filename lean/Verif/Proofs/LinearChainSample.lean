import Verif.Proofs.SampleBatch
import Verif.Proofs.LinearChainLog

/-! The polynomial recorded by `LinearChain` under the sampling semirings. -/

open Finset Spec LinearChainProofs ChainProofs LinearChainLog Sampling MvPolynomial

noncomputable section
namespace LinearChainSample
variable {C : ℕ}

/-- The potentials of one row as leaves. -/
def leafRow (p : ℕ → ℕ → Fin C → Fin C → ℝ) (b n : ℕ) (i j : Fin C) : Expr := .leaf (p b n i j) [b, n, i, j]

/-- The polynomial at one position. -/
def W (z : ℝ) (N L : ℕ) (φ : ℕ → Fin C → Fin C → ℝ) (b n : ℕ) (i j : Fin C) : MvPolynomial (List ℕ) ℝ :=
  MvPolynomial.C (cw z L n i j) + MvPolynomial.C (lw z φ L n i j) * (if n < N - 1 then X [b, n, (i : ℕ), (j : ℕ)] else 1)

/-- The event of a tag sequence. -/
def ev (b : ℕ) {L : ℕ} (y : Tags L C) : Ev := ∑ n : Fin L, Finsupp.single [b, (n : ℕ), (y n.succ : ℕ), (y n.castSucc : ℕ)] 1

theorem row_poly (hC : 0 < C) (z : ℝ) {N logN : ℕ} (lens : ℕ → ℕ) (p : ℕ → ℕ → Fin C → Fin C → ℝ) (b : ℕ) (hl : lens b ≤ N) :
    (LinearChain.core (sr z) N logN lens (leafRow p) b).NoEmpty ∧
    (LinearChain.core (sr z) N logN lens (leafRow p) b).poly = chainSum (2 ^ logN) (W z N (lens b - 1) (p b) b) := by
  refine core_rel (poly_rel z) hC N logN lens (leafRow p) b _ fun n hn i j => ?_
  refine (poly_rel z).sum2 ⟨?_, ?_⟩ ⟨?_, ?_⟩
  · simp only [maskedC, sr, Expr.NoEmpty]
  · simp only [maskedC, SR.fill, sr, cw, Expr.poly, Expr.value]
    by_cases h1 : n < lens b - 1
    · have : ¬ n ≥ lens b - 1 := by omega
      simp [h1, this, Expr.value]
    · have : n ≥ lens b - 1 := by omega
      simp only [h1, this, decide_true, Bool.not_true]
      by_cases h2 : i = j
      · simp [h2, Expr.value]
      · simp [h2, Expr.value]
  · simp only [maskedL, sr, Expr.NoEmpty]
    split_ifs <;> trivial
  · simp only [maskedL, SR.fill, sr, lw, leafRow]
    by_cases h1 : n < lens b - 1
    · have h2 : ¬ n ≥ lens b - 1 := by omega
      have h3 : n < N - 1 := by omega
      simp [h1, h2, h3, Expr.poly, Expr.value]
    · have h2 : n ≥ lens b - 1 := by omega
      by_cases h3 : n < N - 1
      · simp only [h1, h2, h3, decide_true, if_true, if_false, Expr.poly, Expr.value]
        rw [← mul_assoc, ← MvPolynomial.C_mul, ← Real.exp_add, sub_add_cancel]
      · simp [h1, h2, h3, Expr.poly, Expr.value]

theorem W_degree (z : ℝ) (N L : ℕ) (φ : ℕ → Fin C → Fin C → ℝ) (b n : ℕ) (i j : Fin C) (id : List ℕ) :
    degreeOf id (W z N L φ b n i j) ≤ if id.take 2 = [b, n] then 1 else 0 := by
  classical
  unfold W
  refine (degreeOf_add_le _ _ _).trans ?_
  rw [degreeOf_C]
  refine max_le (Nat.zero_le _) ((degreeOf_C_mul_le _ _ _).trans ?_)
  split_ifs with h1 h2 h2
  · rw [degreeOf_X]; split_ifs <;> simp
  · rw [degreeOf_X, if_neg]; intro hc; exact h2 (by rw [hc]; rfl)
  · rw [← C_1, degreeOf_C]; simp
  · rw [← C_1, degreeOf_C]

theorem row_degree (hC : 0 < C) (z : ℝ) {N logN : ℕ} (lens : ℕ → ℕ) (p : ℕ → ℕ → Fin C → Fin C → ℝ) (b : ℕ) (hl : lens b ≤ N)
    (id : List ℕ) : degreeOf id (LinearChain.core (sr z) N logN lens (leafRow p) b).poly ≤ if id.head? = some b then 1 else 0 := by
  rw [(row_poly hC z lens p b hl).2, chainSum]
  refine (degreeOf_sum_le id _ _).trans (Finset.sup_le fun y _ => ?_)
  unfold seqProd
  refine (degreeOf_prod_le id _ _).trans ?_
  have key : ∑ n : Fin (2 ^ logN), degreeOf id (W z N (lens b - 1) (p b) b n (y n.succ) (y n.castSucc)) ≤
      ∑ n : Fin (2 ^ logN), if id.take 2 = [b, (n : ℕ)] then 1 else 0 := sum_le_sum fun n _ => W_degree z N _ (p b) b n _ _ id
  refine key.trans ?_
  split_ifs with hb
  · by_cases hn : ∃ n : Fin (2 ^ logN), id.take 2 = [b, (n : ℕ)]
    · obtain ⟨n, hn⟩ := hn
      rw [sum_eq_single n]
      · simp [hn]
      · intro n' _ hne
        rw [if_neg]; rw [hn]; intro hc
        simp only [List.cons.injEq, true_and, and_true] at hc
        exact hne (Fin.ext hc.symm)
      · simp
    · push Not at hn
      rw [sum_eq_zero fun n _ => if_neg (hn n)]; simp
  · rw [sum_eq_zero]
    intro n _
    rw [if_neg]; intro hc
    apply hb
    cases id with
    | nil => simp at hc
    | cons a l =>
      simp only [List.take_succ_cons, List.cons.injEq] at hc
      simp [hc.1]

theorem row_cle (hC : 0 < C) (z : ℝ) {N logN : ℕ} (hN : N - 1 ≤ 2 ^ logN) (lens : ℕ → ℕ) (p : ℕ → ℕ → Fin C → Fin C → ℝ) (b : ℕ)
    (hl : lens b ≤ N) : CLE (∑ y : Tags (lens b - 1) C, monomial (ev b y) (Real.exp (seqScore (p b) y)))
      (LinearChain.core (sr z) N logN lens (leafRow p) b).poly := by
  rw [(row_poly hC z lens p b hl).2]
  set L := lens b - 1 with hL
  have e1 : ∑ y : Tags L C, monomial (ev b y) (Real.exp (seqScore (p b) y)) =
      chainSum L (fun n i j => monomial (Finsupp.single [b, n, (i : ℕ), (j : ℕ)] 1) (Real.exp (p b n i j))) := by
    unfold chainSum seqProd
    refine sum_congr rfl fun y _ => ?_
    rw [← monomial_sum_prod, seqScore, Real.exp_sum]; rfl
  rw [e1, ← chainSum_idpad hC _ L (2 ^ logN) (by omega)]
  unfold chainSum seqProd
  refine CLE.sum _ fun y _ => CLE.prod _ fun n _ => ?_
  unfold W cw lw
  by_cases h1 : (n : ℕ) < L
  · have h3 : (n : ℕ) < N - 1 := by omega
    simp only [h1, h3, if_true]
    intro m
    classical
    rw [coeff_add, coeff_C, coeff_C_mul, coeff_X, coeff_monomial]
    have := Real.exp_pos z
    have := Real.exp_pos (p b n (y n.succ) (y n.castSucc))
    split_ifs <;> constructor <;> linarith
  · simp only [h1, if_false]
    intro m
    classical
    have hz := Real.exp_pos z
    by_cases h2 : y n.succ = y n.castSucc
    · simp only [h2, if_true]
      rw [coeff_add, coeff_C, coeff_C_mul, coeff_one]
      split_ifs with h3 h4 h4
      · constructor
        · simp
        · rw [coeff_X]; split_ifs <;> linarith
      · rw [coeff_one]; constructor
        · simp
        · split_ifs <;> linarith
      · rw [coeff_X]; constructor
        · simp
        · split_ifs <;> linarith
      · rw [coeff_one]; constructor
        · simp
        · split_ifs <;> linarith
    · simp only [h2, if_false]
      rw [coeff_add, coeff_C, coeff_C_mul, coeff_zero]
      refine ⟨le_rfl, ?_⟩
      have : 0 ≤ coeff m (if (n : ℕ) < N - 1 then (X [b, (n : ℕ), (y n.succ : ℕ), (y n.castSucc : ℕ)] : MvPolynomial (List ℕ) ℝ) else 1) := by
        split_ifs
        · rw [coeff_X]; split_ifs <;> simp
        · rw [coeff_one]; split_ifs <;> simp
      have := mul_nonneg hz.le this
      split_ifs at * <;> linarith

theorem row_value (hC : 0 < C) (z : ℝ) {N logN : ℕ} (lens : ℕ → ℕ) (p : ℕ → ℕ → Fin C → Fin C → ℝ) (b : ℕ) (hl : lens b ≤ N) :
    Real.exp (LinearChain.core (sr z) N logN lens (leafRow p) b).value =
      chainSum (2 ^ logN) fun n i j => cw z (lens b - 1) n i j + lw z (p b) (lens b - 1) n i j := by
  obtain ⟨h1, h2⟩ := row_poly hC z (logN := logN) lens p b hl
  rw [← Expr.eval_poly _ h1, h2]
  unfold chainSum seqProd
  rw [map_sum]
  refine sum_congr rfl fun y _ => ?_
  rw [map_prod]
  refine prod_congr rfl fun n _ => ?_
  unfold W
  split_ifs <;> simp

theorem row_law (hC : 0 < C) (z m : ℝ) {N logN : ℕ} (hN : N - 1 ≤ 2 ^ logN) (lens : ℕ → ℕ) (p : ℕ → ℕ → Fin C → Fin C → ℝ) (b : ℕ)
    (hl : lens b ≤ N) (hm : ∀ n < lens b - 1, ∀ i j, m ≤ p b n i j) :
    RowLaw (LinearChain.core (sr z) N logN lens (leafRow p) b) b (ev b : Tags (lens b - 1) C → Ev) (fun y => Real.exp (seqScore (p b) y))
      (slack z m (lens b - 1) (2 ^ logN - (lens b - 1)) C) where
  noEmpty := (row_poly hC z lens p b hl).1
  degree := row_degree hC z lens p b hl
  cle := row_cle hC z hN lens p b hl
  value := by
    rw [row_value hC z lens p b hl]
    exact chainSum_w_le hC z m (p b) _ _ (by omega) hm
  nonneg := slack_nonneg _ _ _ _ _
  pos y := Real.exp_pos _

end LinearChainSample
