import Mathlib.Analysis.SpecialFunctions.Exp
import Verif.Spec.Gibbs

/-! Facts about Gibbs distributions, and how little phantoms of small weight change them. -/

open Finset

noncomputable section
namespace Spec.Gibbs
variable {ι π : Type} [Fintype ι] [Fintype π]

theorem Z_nonneg (s : ι → ℝ) : 0 ≤ Z s := sum_nonneg fun _ _ => (Real.exp_pos _).le

theorem Z_pos [Nonempty ι] (s : ι → ℝ) : 0 < Z s := sum_pos (fun _ _ => Real.exp_pos _) univ_nonempty

theorem prob_pos [Nonempty ι] (s : ι → ℝ) (y : ι) : 0 < prob s y := div_pos (Real.exp_pos _) (Z_pos s)

theorem prob_nonneg (s : ι → ℝ) (y : ι) : 0 ≤ prob s y := div_nonneg (Real.exp_pos _).le (Z_nonneg s)

theorem sum_prob [Nonempty ι] (s : ι → ℝ) : ∑ y, prob s y = 1 := by
  simp only [prob, ← sum_div]
  exact div_self (Z_pos s).ne'

theorem log_prob [Nonempty ι] (s : ι → ℝ) (y : ι) : Real.log (prob s y) = s y - Real.log (Z s) := by
  rw [prob, Real.log_div (Real.exp_pos _).ne' (Z_pos s).ne', Real.log_exp]

theorem crossEntropy_eq [Nonempty ι] (s t : ι → ℝ) : crossEntropy s t = Real.log (Z t) - expect s t := by
  simp only [crossEntropy, expect, log_prob, mul_sub, sum_sub_distrib, ← sum_mul, sum_prob]
  ring

theorem entropy_eq [Nonempty ι] (s : ι → ℝ) : entropy s = Real.log (Z s) - expect s s := crossEntropy_eq s s

theorem kl_eq [Nonempty ι] (s t : ι → ℝ) : kl s t = (expect s s - expect s t) + (Real.log (Z t) - Real.log (Z s)) := by
  simp only [kl, expect, log_prob]
  have : ∀ y, prob s y * (s y - Real.log (Z s) - (t y - Real.log (Z t))) =
      prob s y * s y - prob s y * t y + prob s y * (Real.log (Z t) - Real.log (Z s)) := fun y => by ring
  rw [sum_congr rfl fun y _ => this y, sum_add_distrib, sum_sub_distrib, ← sum_mul, sum_prob, one_mul]

theorem kl_eq_sub [Nonempty ι] (s t : ι → ℝ) : kl s t = crossEntropy s t - entropy s := by
  rw [kl_eq, crossEntropy_eq, entropy_eq]; ring

theorem abs_expect_le [Nonempty ι] (s f : ι → ℝ) {F : ℝ} (hf : ∀ y, |f y| ≤ F) : |expect s f| ≤ F := by
  refine (abs_sum_le_sum_abs _ _).trans ?_
  have : ∀ y ∈ univ, |prob s y * f y| ≤ prob s y * F := fun y _ => by
    rw [abs_mul, abs_of_nonneg (prob_nonneg s y)]
    exact mul_le_mul_of_nonneg_left (hf y) (prob_nonneg s y)
  refine (sum_le_sum this).trans_eq ?_
  rw [← sum_mul, sum_prob, one_mul]

/-- Gibbs' inequality. -/
theorem kl_nonneg [Nonempty ι] (s t : ι → ℝ) : 0 ≤ kl s t := by
  have h : ∀ y, prob s y - prob t y ≤ prob s y * (Real.log (prob s y) - Real.log (prob t y)) := by
    intro y
    have hs := prob_pos s y
    have ht := prob_pos t y
    have := Real.log_le_sub_one_of_pos (div_pos ht hs)
    rw [Real.log_div ht.ne' hs.ne'] at this
    have h2 := mul_le_mul_of_nonneg_left this hs.le
    rw [mul_sub, mul_sub, mul_div_cancel₀ _ hs.ne', mul_one] at h2
    linarith
  have := sum_le_sum fun y (_ : y ∈ univ) => h y
  rw [sum_sub_distrib, sum_prob, sum_prob, sub_self] at this
  exact this

/-! ### Phantoms -/

/-- The weight of the phantoms relative to the weight of the real structures. -/
def excess (s : ι → ℝ) (ph : π → ℝ) : ℝ := Z ph / Z s

theorem excess_nonneg (s : ι → ℝ) (ph : π → ℝ) : 0 ≤ excess s ph := div_nonneg (Z_nonneg _) (Z_nonneg _)

theorem excess_empty [IsEmpty π] (s : ι → ℝ) (ph : π → ℝ) : excess s ph = 0 := by simp [excess, Z]

theorem Z_elim (s : ι → ℝ) (ph : π → ℝ) : Z (Sum.elim s ph) = Z s + Z ph := by
  simp [Z, Fintype.sum_sum_type]

theorem Z_elim_eq [Nonempty ι] (s : ι → ℝ) (ph : π → ℝ) : Z (Sum.elim s ph) = Z s * (1 + excess s ph) := by
  rw [Z_elim, excess, mul_add, mul_one, mul_div_cancel₀ _ (Z_pos s).ne']

theorem log_Z_elim [Nonempty ι] (s : ι → ℝ) (ph : π → ℝ) :
    Real.log (Z (Sum.elim s ph)) = Real.log (Z s) + Real.log (1 + excess s ph) := by
  rw [Z_elim_eq, Real.log_mul (Z_pos s).ne' (by linarith [excess_nonneg s ph])]

theorem log_one_add_excess (s : ι → ℝ) (ph : π → ℝ) :
    0 ≤ Real.log (1 + excess s ph) ∧ Real.log (1 + excess s ph) ≤ excess s ph := by
  have := excess_nonneg s ph
  refine ⟨Real.log_nonneg (by linarith), ?_⟩
  have := Real.log_le_sub_one_of_pos (show 0 < 1 + excess s ph by linarith)
  linarith

theorem expect_elim [Nonempty ι] (s f : ι → ℝ) (ph g : π → ℝ) :
    (1 + excess s ph) * expect (Sum.elim s ph) (Sum.elim f g) = expect s f + (∑ y, Real.exp (ph y) * g y) / Z s := by
  have hZ := Z_pos s
  have he : 0 < 1 + excess s ph := by linarith [excess_nonneg s ph]
  simp only [expect, prob, Fintype.sum_sum_type, Sum.elim_inl, Sum.elim_inr, Z_elim_eq]
  rw [mul_add, mul_sum, mul_sum, sum_div]
  congr 1
  · refine sum_congr rfl fun y _ => ?_
    field_simp
  · refine sum_congr rfl fun y _ => ?_
    field_simp

/-- Expectations with and without the phantoms. -/
theorem expect_elim_sub [Nonempty ι] (s f : ι → ℝ) (ph g : π → ℝ) {F G : ℝ} (hf : ∀ y, |f y| ≤ F) (hg : ∀ y, |g y| ≤ G) :
    |expect (Sum.elim s ph) (Sum.elim f g) - expect s f| ≤ excess s ph * (F + G) := by
  have hZ := Z_pos s
  have h0 := excess_nonneg s ph
  have he : 0 < 1 + excess s ph := by linarith
  have h1 := expect_elim s f ph g
  have h2 : |(∑ y, Real.exp (ph y) * g y) / Z s| ≤ excess s ph * G := by
    rw [abs_div, abs_of_pos hZ, excess, div_mul_eq_mul_div]
    refine div_le_div_of_nonneg_right ?_ hZ.le
    refine (abs_sum_le_sum_abs _ _).trans ?_
    rw [Z, sum_mul]
    refine sum_le_sum fun y _ => ?_
    rw [abs_mul, abs_of_pos (Real.exp_pos _)]
    exact mul_le_mul_of_nonneg_left (hg y) (Real.exp_pos _).le
  have h3 := abs_expect_le s f hf
  set x := expect (Sum.elim s ph) (Sum.elim f g)
  set c := (∑ y, Real.exp (ph y) * g y) / Z s
  set a := expect s f
  have h4 : (1 + excess s ph) * (x - a) = c - excess s ph * a := by linarith
  have h5 : |(1 + excess s ph) * (x - a)| ≤ excess s ph * (F + G) := by
    rw [h4]
    refine (abs_sub _ _).trans ?_
    rw [abs_mul, abs_of_nonneg h0]
    have := mul_le_mul_of_nonneg_left h3 h0
    linarith
  rw [abs_mul, abs_of_pos he] at h5
  have := mul_nonneg h0 (abs_nonneg (x - a))
  linarith

/-- The same for functions with values in `[0, D]`. -/
theorem expect_elim_sub_nonneg [Nonempty ι] (s f : ι → ℝ) (ph g : π → ℝ) {D : ℝ} (hf : ∀ y, 0 ≤ f y ∧ f y ≤ D)
    (hg : ∀ y, 0 ≤ g y ∧ g y ≤ D) :
    |expect (Sum.elim s ph) (Sum.elim f g) - expect s f| ≤ excess s ph * D := by
  have hZ := Z_pos s
  have h0 := excess_nonneg s ph
  have he : 0 < 1 + excess s ph := by linarith
  have h1 := expect_elim s f ph g
  have h2 : 0 ≤ (∑ y, Real.exp (ph y) * g y) / Z s ∧ (∑ y, Real.exp (ph y) * g y) / Z s ≤ excess s ph * D := by
    constructor
    · exact div_nonneg (sum_nonneg fun y _ => mul_nonneg (Real.exp_pos _).le (hg y).1) hZ.le
    · rw [excess, div_mul_eq_mul_div]
      refine div_le_div_of_nonneg_right ?_ hZ.le
      rw [Z, sum_mul]
      exact sum_le_sum fun y _ => mul_le_mul_of_nonneg_left (hg y).2 (Real.exp_pos _).le
  have h3 : 0 ≤ expect s f ∧ expect s f ≤ D := by
    constructor
    · exact sum_nonneg fun y _ => mul_nonneg (prob_nonneg s y) (hf y).1
    · refine (sum_le_sum fun y _ => mul_le_mul_of_nonneg_left (hf y).2 (prob_nonneg s y)).trans_eq ?_
      rw [← sum_mul, sum_prob, one_mul]
  set x := expect (Sum.elim s ph) (Sum.elim f g)
  set c := (∑ y, Real.exp (ph y) * g y) / Z s
  set a := expect s f
  have h4 : (1 + excess s ph) * (x - a) = c - excess s ph * a := by linarith
  have h6 := mul_nonneg h0 h3.1
  have h7 := mul_le_mul_of_nonneg_left h3.2 h0
  have h5 : |(1 + excess s ph) * (x - a)| ≤ excess s ph * D := by
    rw [h4, abs_le]; constructor <;> linarith
  rw [abs_mul, abs_of_pos he] at h5
  have := mul_nonneg h0 (abs_nonneg (x - a))
  linarith

/-- Cross entropies with and without the phantoms. -/
theorem crossEntropy_elim [Nonempty ι] (s t : ι → ℝ) (ph qh : π → ℝ) {F G : ℝ} (hf : ∀ y, |t y| ≤ F) (hg : ∀ y, |qh y| ≤ G) :
    |crossEntropy (Sum.elim s ph) (Sum.elim t qh) - crossEntropy s t| ≤ excess t qh + excess s ph * (F + G) := by
  rw [crossEntropy_eq, crossEntropy_eq, log_Z_elim]
  have h1 := log_one_add_excess t qh
  have h2 := expect_elim_sub s t ph qh hf hg
  rw [abs_le] at h2 ⊢
  constructor <;> linarith [h1.1, h1.2, h2.1, h2.2, excess_nonneg t qh]

/-- Entropies with and without the phantoms. -/
theorem entropy_elim [Nonempty ι] (s : ι → ℝ) (ph : π → ℝ) {F G : ℝ} (hf : ∀ y, |s y| ≤ F) (hg : ∀ y, |ph y| ≤ G) :
    |entropy (Sum.elim s ph) - entropy s| ≤ excess s ph * (1 + F + G) := by
  have := crossEntropy_elim s s ph ph hf hg
  refine this.trans_eq (by ring)

/-- Divergences with and without the phantoms. -/
theorem kl_elim [Nonempty ι] (s t : ι → ℝ) (ph qh : π → ℝ) {F G : ℝ} (hs : ∀ y, |s y| ≤ F) (hph : ∀ y, |ph y| ≤ G)
    (ht : ∀ y, |t y| ≤ F) (hqh : ∀ y, |qh y| ≤ G) :
    |kl (Sum.elim s ph) (Sum.elim t qh) - kl s t| ≤ excess t qh + excess s ph * (1 + 2 * F + 2 * G) := by
  have h1 := crossEntropy_elim s t ph qh ht hqh
  have h2 := entropy_elim s ph hs hph
  rw [kl_eq_sub, kl_eq_sub]
  rw [abs_le] at h1 h2 ⊢
  constructor <;> linarith [h1.1, h1.2, h2.1, h2.2]

/-- A bound of the excess. -/
theorem excess_le [Nonempty ι] (s : ι → ℝ) (ph : π → ℝ) {L U : ℝ} (hs : ∀ y, L ≤ s y) (hp : ∀ y, ph y ≤ U) :
    excess s ph ≤ Fintype.card π * Real.exp (U - L) := by
  rw [excess, div_le_iff₀ (Z_pos s)]
  have h1 : Z ph ≤ Fintype.card π * Real.exp U := by
    refine (sum_le_sum fun y _ => Real.exp_le_exp.2 (hp y)).trans_eq ?_
    simp
  have h2 : Real.exp L ≤ Z s := by
    obtain ⟨y⟩ := ‹Nonempty ι›
    exact (Real.exp_le_exp.2 (hs y)).trans (single_le_sum (f := fun y => Real.exp (s y)) (fun _ _ => (Real.exp_pos _).le) (mem_univ y))
  refine h1.trans ?_
  rw [mul_assoc]
  refine mul_le_mul_of_nonneg_left ?_ (by positivity)
  have h3 : Real.exp U = Real.exp (U - L) * Real.exp L := by rw [← Real.exp_add]; congr 1; ring
  rw [h3]
  exact mul_le_mul_of_nonneg_left h2 (Real.exp_pos _).le

end Spec.Gibbs
