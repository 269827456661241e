import Verif.Spec.Conditional
import Verif.Proofs.Gibbs
import Mathlib.Tactic.FieldSimp
import Mathlib.Analysis.SpecialFunctions.Log.ENNRealLogExp

/-! Gibbs distributions whose scores are lowered on the structures that violate a condition. -/

open Finset

noncomputable section
namespace Spec.Gibbs
variable {ι : Type} [Fintype ι]

theorem probOf_nonneg (s : ι → ℝ) (A : ι → Prop) : 0 ≤ probOf s A :=
  sum_nonneg fun y _ => by split_ifs <;> [exact prob_nonneg s y; exact le_rfl]

theorem probOf_pos (s : ι → ℝ) {A : ι → Prop} (h : ∃ y, A y) : 0 < probOf s A := by
  classical
  obtain ⟨y, hy⟩ := h
  have : Nonempty ι := ⟨y⟩
  refine sum_pos' (fun y _ => by split_ifs <;> [exact prob_nonneg s y; exact le_rfl]) ⟨y, mem_univ y, ?_⟩
  rw [if_pos hy]
  exact prob_pos s y

theorem probOf_add_not [Nonempty ι] (s : ι → ℝ) (A : ι → Prop) : probOf s A + probOf s (fun y => ¬ A y) = 1 := by
  classical
  rw [probOf, probOf, ← sum_add_distrib, ← sum_prob s]
  refine sum_congr rfl fun y _ => ?_
  by_cases h : A y <;> simp [h]

theorem probOf_le_one [Nonempty ι] (s : ι → ℝ) (A : ι → Prop) : probOf s A ≤ 1 := by
  linarith [probOf_add_not s A, probOf_nonneg s fun y => ¬ A y]

theorem probOf_eq_zero (s : ι → ℝ) {A : ι → Prop} (h : ¬ ∃ y, A y) : probOf s A = 0 :=
  sum_eq_zero fun y _ => if_neg fun hy => h ⟨y, hy⟩

open Classical in
/-- The weight of an event. -/
def wt (s : ι → ℝ) (A : ι → Prop) (f : ι → ℝ) : ℝ := ∑ y, if A y then Real.exp (s y) * f y else 0

theorem wt_eq [Nonempty ι] (s : ι → ℝ) (A : ι → Prop) : wt s A (fun _ => 1) = Z s * probOf s A := by
  classical
  rw [wt, probOf, mul_sum]
  refine sum_congr rfl fun y _ => ?_
  split_ifs
  · rw [prob, mul_div_cancel₀ _ (Z_pos s).ne', mul_one]
  · simp

theorem condExpect_eq [Nonempty ι] (s : ι → ℝ) (A : ι → Prop) (f : ι → ℝ) : condExpect s A f = wt s A f / wt s A fun _ => 1 := by
  classical
  have e : (∑ y, if A y then prob s y * f y else 0) = wt s A f / Z s := by
    rw [wt, sum_div]
    refine sum_congr rfl fun y _ => ?_
    by_cases h : A y
    · simp only [h, if_true, prob]; ring
    · simp [h]
  rw [wt_eq, ← div_div, ← e]
  rfl

theorem expect_eq_wt (s f : ι → ℝ) : expect s f = wt s (fun _ => True) f / Z s := by
  rw [expect, wt, sum_div]
  refine sum_congr rfl fun y _ => ?_
  rw [if_pos trivial, prob]; ring

theorem condProb_eq (s : ι → ℝ) (A B : ι → Prop) [DecidablePred B] : condProb s A B = condExpect s A fun y => if B y then 1 else 0 := by
  classical
  rw [condProb, condExpect]
  congr 1
  refine sum_congr rfl fun y _ => ?_
  by_cases hA : A y <;> by_cases hB : B y <;> simp [hA, hB]

theorem sum_split (A : ι → Prop) (g : ι → ℝ) : ∑ y, g y = wt (fun _ => 0) A g + wt (fun _ => 0) (fun y => ¬ A y) g := by
  classical
  rw [wt, wt, ← sum_add_distrib]
  refine sum_congr rfl fun y _ => ?_
  by_cases h : A y <;> simp [h]

/-- What is left of the structures that violate `A`, when their scores are lowered by `l`, relative to the others. -/
def rest (s : ι → ℝ) (A : ι → Prop) (l : ℝ) : ℝ := Real.exp (-l) * (1 - probOf s A) / probOf s A

theorem rest_nonneg [Nonempty ι] (s : ι → ℝ) (A : ι → Prop) (l : ℝ) : 0 ≤ rest s A l :=
  div_nonneg (mul_nonneg (Real.exp_pos _).le (by linarith [probOf_le_one s A])) (probOf_nonneg s A)

variable {s s' : ι → ℝ} {A : ι → Prop} {l : ℝ}

theorem split_Z (h1 : ∀ y, A y → s' y = s y) (h2 : ∀ y, ¬ A y → s' y ≤ s y - l) (f : ι → ℝ) {M : ℝ} (hf : ∀ y, 0 ≤ f y ∧ f y ≤ M) :
    ∃ R, wt s' (fun _ => True) f = wt s A f + R ∧ 0 ≤ R ∧ R ≤ M * wt s' (fun y => ¬ A y) (fun _ => 1) ∧
      wt s' (fun y => ¬ A y) (fun _ => 1) ≤ Real.exp (-l) * wt s (fun y => ¬ A y) fun _ => 1 := by
  classical
  refine ⟨wt s' (fun y => ¬ A y) f, ?_, ?_, ?_, ?_⟩
  · rw [wt, wt, wt, ← sum_add_distrib]
    refine sum_congr rfl fun y _ => ?_
    by_cases h : A y
    · simp [h, h1 y h]
    · simp [h]
  · exact sum_nonneg fun y _ => by split_ifs <;> [exact mul_nonneg (Real.exp_pos _).le (hf y).1; exact le_rfl]
  · rw [wt, wt, mul_sum]
    refine sum_le_sum fun y _ => ?_
    by_cases h : A y
    · simp [h]
    · simp only [h, not_false_eq_true, if_true, mul_one]
      rw [mul_comm M]
      exact mul_le_mul_of_nonneg_left (hf y).2 (Real.exp_pos _).le
  · rw [wt, wt, mul_sum]
    refine sum_le_sum fun y _ => ?_
    by_cases h : A y
    · simp [h]
    · simp only [h, not_false_eq_true, if_true, mul_one]
      rw [← Real.exp_add]
      exact Real.exp_le_exp.2 (by linarith [h2 y h])

theorem mask_main (h1 : ∀ y, A y → s' y = s y) (h2 : ∀ y, ¬ A y → s' y ≤ s y - l) (hA : ∃ y, A y) :
    wt s A (fun _ => 1) ≤ Z s' ∧ Z s' ≤ wt s A (fun _ => 1) * (1 + rest s A l) := by
  obtain ⟨y0, hy0⟩ := hA
  have : Nonempty ι := ⟨y0⟩
  obtain ⟨R, e, hR0, hR1, hR2⟩ := split_Z h1 h2 (fun _ => 1) (M := 1) fun _ => ⟨zero_le_one, le_rfl⟩
  have eZ : Z s' = wt s' (fun _ => True) fun _ => 1 := by simp [Z, wt]
  have hP := probOf_pos s ⟨y0, hy0⟩
  rw [eZ, e]
  refine ⟨by linarith, ?_⟩
  have e2 : Real.exp (-l) * wt s (fun y => ¬ A y) (fun _ => 1) = wt s A (fun _ => 1) * rest s A l := by
    rw [wt_eq, wt_eq, rest]
    have := probOf_add_not s A
    have e3 : probOf s (fun y => ¬ A y) = 1 - probOf s A := by linarith
    rw [e3]
    field_simp
  linarith

/-- The normaliser after lowering. -/
theorem mask_Z (h1 : ∀ y, A y → s' y = s y) (h2 : ∀ y, ¬ A y → s' y ≤ s y - l) (hA : ∃ y, A y) :
    Real.log (Z s) + Real.log (probOf s A) ≤ Real.log (Z s') ∧ Real.log (Z s') ≤ Real.log (Z s) + Real.log (probOf s A) + rest s A l := by
  obtain ⟨y0, hy0⟩ := hA
  have : Nonempty ι := ⟨y0⟩
  have hP := probOf_pos s ⟨y0, hy0⟩
  have hr := rest_nonneg s A l
  obtain ⟨k1, k2⟩ := mask_main h1 h2 ⟨y0, hy0⟩
  rw [wt_eq] at k1 k2
  have hw : 0 < Z s * probOf s A := mul_pos (Z_pos s) hP
  rw [← Real.log_mul (Z_pos s).ne' hP.ne']
  refine ⟨Real.log_le_log hw k1, (Real.log_le_log (Z_pos s') k2).trans ?_⟩
  rw [Real.log_mul hw.ne' (by linarith)]
  have := Real.log_le_sub_one_of_pos (show 0 < 1 + rest s A l by linarith)
  linarith

/-- Expectations after lowering. -/
theorem mask_expect (h1 : ∀ y, A y → s' y = s y) (h2 : ∀ y, ¬ A y → s' y ≤ s y - l) (hA : ∃ y, A y) (f : ι → ℝ) {M : ℝ} (hf : ∀ y, 0 ≤ f y ∧ f y ≤ M) :
    |expect s' f - condExpect s A f| ≤ M * rest s A l := by
  obtain ⟨y0, hy0⟩ := hA
  have : Nonempty ι := ⟨y0⟩
  have hP := probOf_pos s ⟨y0, hy0⟩
  have hM : 0 ≤ M := (hf y0).1.trans (hf y0).2
  obtain ⟨R, e, hR0, hR1, -⟩ := split_Z h1 h2 f hf
  obtain ⟨R', e', hR0', hR1', -⟩ := split_Z h1 h2 (fun _ => 1) (M := 1) fun _ => ⟨zero_le_one, le_rfl⟩
  have eZ : Z s' = wt s' (fun _ => True) fun _ => 1 := by simp [Z, wt]
  obtain ⟨-, k2⟩ := mask_main h1 h2 ⟨y0, hy0⟩
  have hw : 0 < wt s A fun _ => 1 := by rw [wt_eq]; exact mul_pos (Z_pos s) hP
  have ha0 : 0 ≤ wt s A f := sum_nonneg fun y _ => by split_ifs <;> [exact mul_nonneg (Real.exp_pos _).le (hf y).1; exact le_rfl]
  have ha1 : wt s A f ≤ M * wt s A fun _ => 1 := by
    rw [wt, wt, mul_sum]
    refine sum_le_sum fun y _ => ?_
    split_ifs
    · rw [mul_one, mul_comm M]; exact mul_le_mul_of_nonneg_left (hf y).2 (Real.exp_pos _).le
    · simp
  have hZ' := Z_pos s'
  have er : Z s' - wt s A (fun _ => 1) = wt s' (fun y => ¬ A y) fun _ => 1 := by
    classical
    rw [eZ, wt, wt, wt, ← sum_sub_distrib]
    refine sum_congr rfl fun y _ => ?_
    by_cases h : A y
    · simp [h, h1 y h]
    · simp [h]
  rw [expect_eq_wt, condExpect_eq, e]
  set a := wt s A f
  set B := wt s A fun _ => 1
  set r := wt s' (fun y => ¬ A y) fun _ => 1
  have hZ : Z s' = B + r := by linarith
  have hr0 : 0 ≤ r := by
    refine sum_nonneg fun y _ => ?_
    split_ifs <;> [simpa using (Real.exp_pos _).le; exact le_rfl]
  have hrB : r ≤ B * rest s A l := by linarith
  have key : (a + R) / Z s' - a / B = (R * B - a * r) / (B * (B + r)) := by
    rw [hZ, div_sub_div _ _ (by linarith : B + r ≠ 0) hw.ne']
    congr 1 <;> ring
  rw [key, abs_div, abs_of_pos (by positivity : 0 < B * (B + r)), div_le_iff₀ (by positivity)]
  have t1 : R * B ≤ M * r * B := mul_le_mul_of_nonneg_right hR1 hw.le
  have t2 : a * r ≤ M * B * r := mul_le_mul_of_nonneg_right ha1 hr0
  have t3 : 0 ≤ R * B := mul_nonneg hR0 hw.le
  have t4 : 0 ≤ a * r := mul_nonneg ha0 hr0
  have t5 : M * r * B ≤ M * rest s A l * (B * (B + r)) := by
    have u1 : M * r * B ≤ M * (B * rest s A l) * B := mul_le_mul_of_nonneg_right (mul_le_mul_of_nonneg_left hrB hM) hw.le
    have u2 : M * (B * rest s A l) * B ≤ M * rest s A l * (B * (B + r)) := by
      have : 0 ≤ M * rest s A l * B * r := mul_nonneg (mul_nonneg (mul_nonneg hM (rest_nonneg s A l)) hw.le) hr0
      nlinarith
    linarith
  rw [abs_le]
  constructor
  · nlinarith
  · nlinarith

/-- The probability of an event after lowering. -/
theorem mask_prob (h1 : ∀ y, A y → s' y = s y) (h2 : ∀ y, ¬ A y → s' y ≤ s y - l) (hA : ∃ y, A y) (B : ι → Prop) [DecidablePred B] :
    |(∑ y, if B y then prob s' y else 0) - condProb s A B| ≤ rest s A l := by
  have := mask_expect h1 h2 hA (fun y => if B y then 1 else 0) (M := 1) fun y => by
    split_ifs <;> norm_num
  rw [one_mul] at this
  rw [condProb_eq]
  refine (le_of_eq ?_).trans this
  have e : (∑ y, if B y then prob s' y else 0) = expect s' fun y => if B y then 1 else 0 := by
    refine sum_congr rfl fun y _ => ?_
    by_cases h : B y <;> simp [h]
  rw [e]

/-- With `-∞` nothing is left of the others. -/
theorem mask_inf (s : ι → ℝ) (A : ι → Prop) (s' : ι → EReal) (h1 : ∀ y, A y → s' y = s y) (h2 : ∀ y, ¬ A y → s' y = ⊥) :
    ((∃ y, A y) → ENNReal.log (∑ y, EReal.exp (s' y)) = ((Real.log (Z s) + Real.log (probOf s A) : ℝ) : EReal)) ∧
    ((¬ ∃ y, A y) → ENNReal.log (∑ y, EReal.exp (s' y)) = ⊥) := by
  classical
  have e : ∑ y, EReal.exp (s' y) = ENNReal.ofReal (wt s A fun _ => 1) := by
    rw [wt, ENNReal.ofReal_sum_of_nonneg fun y _ => by split_ifs <;> [simpa using (Real.exp_pos _).le; exact le_rfl]]
    refine sum_congr rfl fun y _ => ?_
    by_cases h : A y
    · simp [h, h1 y h]
    · simp [h, h2 y h]
  constructor
  · rintro ⟨y0, hy0⟩
    have : Nonempty ι := ⟨y0⟩
    have hP := probOf_pos s ⟨y0, hy0⟩
    have hw : 0 < Z s * probOf s A := mul_pos (Z_pos s) hP
    rw [e, wt_eq, ENNReal.log_ofReal_of_pos hw, Real.log_mul (Z_pos s).ne' hP.ne']
  · intro h
    have : wt s A (fun _ => 1) = 0 := sum_eq_zero fun y _ => if_neg fun hy => h ⟨y, hy⟩
    rw [e, this]
    simp

end Spec.Gibbs
