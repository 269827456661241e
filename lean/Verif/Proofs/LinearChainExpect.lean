import Verif.Proofs.LinearChainLog

/-! Expectations of additive statistics of tag sequences, computed by the entropy, cross-entropy and KL semirings. -/

open Finset Spec ChainProofs LinearChainProofs ChainBounds SemiringRel

noncomputable section

/-- Follow a relation by a ring homomorphism. -/
theorem SRRel.comp {α R R' : Type} [CommSemiring R] [CommSemiring R'] {S : SR α} {h : α → R} (H : SRRel S fun a x => h a = x)
    (g : R →+* R') : SRRel S fun a x => g (h a) = x :=
  SRRel.of_hom (h := fun a => g (h a)) (fun a b => by rw [H.mul rfl rfl, map_mul]) fun as hne => by
    have h1 := H.sum (xs := as.map h) hne (by rw [List.forall₂_map_right_iff]; exact List.forall₂_same.2 fun _ _ => rfl)
    rw [h1, map_list_sum, List.map_map]; rfl

namespace LinearChainLog
variable {C : ℕ}

/-- Expectation of the additive statistic `f` under the distribution with potentials `φ`. -/
def chainE (m : ℕ) (φ f : ℕ → Fin C → Fin C → ℝ) : ℝ := ∑ y : Tags m C, chainP φ y * seqScore f y

theorem dual_eq_mk (w g : ℝ) : dual w g = mk w (w * g) := rfl

theorem prod_dual {ι : Type} (s : Finset ι) (w g : ι → ℝ) : ∏ i ∈ s, dual (w i) (g i) = dual (∏ i ∈ s, w i) (∑ i ∈ s, g i) := by
  classical
  induction s using Finset.induction_on with
  | empty => simp [dual_one]
  | insert a s ha ih => rw [prod_insert ha, prod_insert ha, sum_insert ha, ih, dual_mul]

@[simp] theorem fst_dual (w g : ℝ) : (dual w g).fst = w := by simp [dual_eq_mk]
@[simp] theorem snd_dual (w g : ℝ) : (dual w g).snd = w * g := by simp [dual_eq_mk]

theorem chainSum_dual_fst (L : ℕ) (φ f : ℕ → Fin C → Fin C → ℝ) :
    (chainSum L fun n i j => dual (Real.exp (φ n i j)) (f n i j)).fst = chainZ L φ := by
  rw [chainZ_eq, fst_chainSum]; simp

theorem chainSum_dual_snd (hC : 0 < C) (L : ℕ) (φ f : ℕ → Fin C → Fin C → ℝ) :
    (chainSum L fun n i j => dual (Real.exp (φ n i j)) (f n i j)).snd / chainZ L φ = chainE L φ f := by
  rw [chainSum, snd_sum, sum_div]
  refine sum_congr rfl fun y _ => ?_
  rw [seqProd, prod_dual, snd_dual, ← Real.exp_sum, chainP, seqScore, seqScore]
  ring

theorem near_entry {z z0 K : ℝ} {L : ℕ} (φ f : ℕ → Fin C → Fin C → ℝ) (hz : |z0| ≤ K) (hf : ∀ n < L, ∀ i j, |f n i j| ≤ K)
    (n : ℕ) (i j : Fin C) :
    Near K (if n < L then dual (Real.exp (φ n i j)) (f n i j) else if i = j then 1 else 0)
      (if n < L then dual (Real.exp z) z0 + dual (Real.exp (φ n i j)) (f n i j) else
        (if i = j then 1 else dual (Real.exp z) z0) + dual (Real.exp z) z0) := by
  have hK : 0 ≤ K := (abs_nonneg _).trans hz
  have hd : Near K 0 (dual (Real.exp z) z0) := ⟨by simp, by simp [(Real.exp_pos z).le], by simp, by
    simp only [snd_dual, fst_dual, TrivSqZeroExt.snd_zero, TrivSqZeroExt.fst_zero, sub_zero]
    rw [abs_mul, abs_of_pos (Real.exp_pos z), mul_comm]
    exact mul_le_mul_of_nonneg_right hz (Real.exp_pos z).le⟩
  have h1 : Near K 1 1 := Near.one.mono hK
  by_cases hn : n < L
  · simp only [hn, if_true]
    have hp : Near K (dual (Real.exp (φ n i j)) (f n i j)) (dual (Real.exp (φ n i j)) (f n i j)) := ⟨by simp [(Real.exp_pos _).le], le_rfl, by
      simp only [snd_dual, fst_dual]
      rw [abs_mul, abs_of_pos (Real.exp_pos _), mul_comm]
      exact mul_le_mul_of_nonneg_right (hf n hn i j) (Real.exp_pos _).le, by simp⟩
    simpa using hd.add hp
  · simp only [hn, if_false]
    by_cases hij : i = j
    · simpa [hij] using h1.add hd
    · simpa [hij] using hd.add hd

/-- The expectation computed with a stand-in `z` whose statistic is `z0`, against the true one. -/
theorem expect_bound (hC : 0 < C) (z z0 m K : ℝ) (L M : ℕ) (h : L ≤ M) (φ f : ℕ → Fin C → Fin C → ℝ)
    (hz : |z0| ≤ K) (hf : ∀ n < L, ∀ i j, |f n i j| ≤ K) (hm : ∀ n < L, ∀ i j, m ≤ φ n i j) (a : TrivSqZeroExt ℝ ℝ)
    (ha : a = (1 + (2 * C - 1 : ℕ) * dual (Real.exp z) z0) ^ (M - L) *
      chainSum L fun n i j => dual (Real.exp (φ n i j)) (f n i j) + dual (Real.exp z) z0) :
    |Real.log a.fst - Real.log (chainZ L φ)| ≤ slack z m L (M - L) C ∧
    |a.snd / a.fst - chainE L φ f| ≤ 2 * (M * K) * slack z m L (M - L) C := by
  rw [← chainSum_smooth hC (dual (Real.exp z) z0) (fun n i j => dual (Real.exp (φ n i j)) (f n i j)) L M h] at ha
  have hK : 0 ≤ K := (abs_nonneg _).trans hz
  have hnear := Near.chainSum (M := M) fun n _ i j => near_entry (z := z) φ f hz hf n i j
  rw [chainSum_idpad hC _ L M h, ← ha] at hnear
  have hfst : a.fst = chainSum M (fun n i j => cw z L n i j + lw z φ L n i j) := by
    rw [ha, fst_chainSum]
    refine chainSum_congr fun n _ i j => ?_
    simp only [cw, lw]
    split_ifs <;> simp
  have hZ0 := chainZ_pos hC φ L
  have hZ1 := chainZ_le hC z φ L M h
  have hup := chainSum_w_le hC z m φ L M h hm
  have hg := growth_le hC z m φ L M h hm
  rw [← hfst] at hZ1 hup hg
  constructor
  · rw [abs_le]
    have e1 := Real.log_le_log hZ0 hZ1
    have e2 := Real.log_le_log (hZ0.trans_le hZ1) hup
    rw [Real.log_mul hZ0.ne' (Real.exp_pos _).ne', Real.log_exp] at e2
    have := slack_nonneg z m L (M - L) C
    constructor <;> linarith
  · have hr := hnear.ratio (by positivity) (by rw [chainSum_dual_fst]; exact hZ0)
    rw [chainSum_dual_fst, chainSum_dual_snd hC] at hr
    exact hr.trans (mul_le_mul_of_nonneg_left hg (by positivity))

theorem sum_chainP' {L : ℕ} (hC : 0 < C) (φ : ℕ → Fin C → Fin C → ℝ) : ∑ y : Tags L C, chainP φ y = 1 := by
  simp only [chainP, ← sum_div]
  exact div_self (chainZ_pos hC φ L).ne'

theorem log_chainP {L : ℕ} (hC : 0 < C) (φ : ℕ → Fin C → Fin C → ℝ) (y : Tags L C) :
    Real.log (chainP φ y) = seqScore φ y - Real.log (chainZ L φ) := by
  rw [chainP, Real.log_div (Real.exp_pos _).ne' (chainZ_pos hC φ L).ne', Real.log_exp]

theorem chainCE_eq (hC : 0 < C) (L : ℕ) (φ ψ : ℕ → Fin C → Fin C → ℝ) :
    chainCE L φ ψ = Real.log (chainZ L ψ) - chainE L φ ψ := by
  simp only [chainCE, log_chainP hC, mul_sub, sum_sub_distrib, chainE]
  rw [← sum_mul, sum_chainP' hC]
  ring

theorem chainEntropy_eq (hC : 0 < C) (L : ℕ) (φ : ℕ → Fin C → Fin C → ℝ) :
    chainEntropy L φ = Real.log (chainZ L φ) - chainE L φ φ := chainCE_eq hC L φ φ

theorem chainKL_eq (hC : 0 < C) (L : ℕ) (φ ψ : ℕ → Fin C → Fin C → ℝ) :
    chainKL L φ ψ = chainCE L φ ψ - chainEntropy L φ := by
  simp only [chainKL, chainCE, chainEntropy, mul_sub, sum_sub_distrib]
  ring

theorem chainE_sub (L : ℕ) (φ f g : ℕ → Fin C → Fin C → ℝ) :
    chainE L φ (fun n i j => f n i j - g n i j) = chainE L φ f - chainE L φ g := by
  simp only [chainE, seqScore, sum_sub_distrib, mul_sub]

end LinearChainLog
