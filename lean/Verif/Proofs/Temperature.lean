import Verif.Proofs.Gibbs
import Mathlib.Tactic.FieldSimp

/-! Gibbs distributions whose scores are multiplied by an inverse temperature. -/

open Finset

noncomputable section
namespace Spec.Gibbs
variable {ι : Type} [Fintype ι]

theorem log_Z_scaled (s : ι → ℝ) {β : ℝ} (hβ : 0 ≤ β) {y0 : ι} (h : ∀ y, s y ≤ s y0) :
    β * s y0 ≤ Real.log (Z fun y => β * s y) ∧ Real.log (Z fun y => β * s y) ≤ β * s y0 + Real.log (Fintype.card ι) := by
  have : Nonempty ι := ⟨y0⟩
  have hc : (0 : ℝ) < Fintype.card ι := by exact_mod_cast Fintype.card_pos
  constructor
  · rw [Real.le_log_iff_exp_le (Z_pos _)]
    exact single_le_sum (f := fun y => Real.exp (β * s y)) (fun y _ => (Real.exp_pos _).le) (mem_univ y0)
  · rw [Real.log_le_iff_le_exp (Z_pos _), Real.exp_add, Real.exp_log hc]
    refine (sum_le_card_nsmul univ _ (Real.exp (β * s y0)) fun y _ => Real.exp_le_exp.2 (mul_le_mul_of_nonneg_left (h y) hβ)).trans_eq ?_
    rw [nsmul_eq_mul, card_univ, mul_comm]

/-- The mean of a function that stays within `[0, M]` is close to its value at a structure that is better than all others by `g`. -/
theorem cold_expect (s : ι → ℝ) {β g : ℝ} (hβ : 0 ≤ β) {y0 : ι} (h : ∀ y, y ≠ y0 → s y + g ≤ s y0) (f : ι → ℝ) {M : ℝ} (hf : ∀ y, 0 ≤ f y ∧ f y ≤ M) :
    |expect (fun y => β * s y) f - f y0| ≤ M * ((Fintype.card ι - 1) * Real.exp (-(β * g))) := by
  classical
  have : Nonempty ι := ⟨y0⟩
  have hp : ∀ y ∈ univ.erase y0, prob (fun y => β * s y) y ≤ Real.exp (-(β * g)) := by
    intro y hy
    have h1 : Real.exp (β * s y0) ≤ Z fun y => β * s y :=
      single_le_sum (f := fun y => Real.exp (β * s y)) (fun y _ => (Real.exp_pos _).le) (mem_univ y0)
    rw [prob, div_le_iff₀ (Z_pos _)]
    refine le_trans ?_ (mul_le_mul_of_nonneg_left h1 (Real.exp_pos _).le)
    rw [← Real.exp_add]
    have := mul_le_mul_of_nonneg_left (h y (ne_of_mem_erase hy)) hβ
    exact Real.exp_le_exp.2 (by linarith)
  have e : expect (fun y => β * s y) f - f y0 = ∑ y ∈ univ.erase y0, prob (fun y => β * s y) y * (f y - f y0) := by
    have h1 : f y0 = ∑ y, prob (fun y => β * s y) y * f y0 := by rw [← sum_mul, sum_prob, one_mul]
    rw [expect]
    conv_lhs => rw [h1]
    rw [← sum_sub_distrib]
    refine Eq.trans ?_ (sum_erase univ (a := y0) (by rw [sub_self, mul_zero])).symm
    exact sum_congr rfl fun y _ => by ring
  rw [e]
  have hM : 0 ≤ M := (hf y0).1.trans (hf y0).2
  refine (abs_sum_le_sum_abs _ _).trans ?_
  refine (sum_le_card_nsmul _ _ (M * Real.exp (-(β * g))) fun y hy => ?_).trans_eq ?_
  · rw [abs_mul, abs_of_nonneg (prob_nonneg _ y), mul_comm M]
    refine mul_le_mul (hp y hy) ?_ (abs_nonneg _) (Real.exp_pos _).le
    rw [abs_le]
    constructor <;> linarith [(hf y).1, (hf y).2, (hf y0).1, (hf y0).2]
  · rw [nsmul_eq_mul, card_erase_of_mem (mem_univ _), card_univ, Nat.cast_sub Fintype.card_pos, Nat.cast_one]
    ring

open Classical in
theorem cold_prob (s : ι → ℝ) {β g : ℝ} (hβ : 0 ≤ β) {y0 : ι} (h : ∀ y, y ≠ y0 → s y + g ≤ s y0) (B : ι → Prop) :
    |(∑ y, if B y then prob (fun y => β * s y) y else 0) - (if B y0 then 1 else 0)| ≤ (Fintype.card ι - 1) * Real.exp (-(β * g)) := by
  have := cold_expect s hβ h (fun y => if B y then 1 else 0) (M := 1) fun y => by split_ifs <;> simp
  rw [one_mul] at this
  refine Eq.trans_le ?_ this
  congr 2
  rw [expect]
  exact sum_congr rfl fun y _ => by split_ifs <;> simp

end Spec.Gibbs
