import Verif.Proofs.Gibbs
import Verif.Spec.MaxEntropy

/-! The variational principle: a Gibbs distribution maximises expected score plus entropy. -/

open Finset Spec

noncomputable section
namespace Spec.Gibbs
variable {ι : Type} [Fintype ι]

theorem prob_isDist [Nonempty ι] (s : ι → ℝ) : IsDist (prob s) := ⟨fun y => (prob_pos s y).le, sum_prob s⟩

theorem term_le {a c : ℝ} (ha : 0 ≤ a) (hc : 0 < c) : a * (Real.log c - Real.log a) ≤ c - a := by
  rcases ha.eq_or_lt with rfl | ha
  · simpa using hc.le
  · have h := Real.log_le_sub_one_of_pos (div_pos hc ha)
    rw [Real.log_div hc.ne' ha.ne'] at h
    calc a * (Real.log c - Real.log a) ≤ a * (c / a - 1) := mul_le_mul_of_nonneg_left h ha.le
      _ = c - a := by field_simp

theorem term_eq {a c : ℝ} (ha : 0 ≤ a) (hc : 0 < c) (h : a * (Real.log c - Real.log a) = c - a) : a = c := by
  rcases ha.eq_or_lt with rfl | ha
  · simp at h; linarith
  · by_contra hne
    have h1 : c / a ≠ 1 := fun e => hne ((div_eq_one_iff_eq ha.ne').1 e).symm
    have h2 := Real.log_lt_sub_one_of_pos (div_pos hc ha) h1
    rw [Real.log_div hc.ne' ha.ne'] at h2
    have h3 := mul_lt_mul_of_pos_left h2 ha
    have h4 : a * (c / a - 1) = c - a := by field_simp
    linarith

theorem gap [Nonempty ι] (s q : ι → ℝ) (hq : IsDist q) : ∑ y, ((prob s y - q y) - q y * (Real.log (prob s y) - Real.log (q y))) = Real.log (Z s) - (mean q s + shannon q) := by
  have e : ∀ y, (prob s y - q y) - q y * (Real.log (prob s y) - Real.log (q y)) = prob s y - q y - q y * s y + q y * Real.log (Z s) + q y * Real.log (q y) := fun y => by
    rw [log_prob]; ring
  rw [sum_congr rfl fun y _ => e y, sum_add_distrib, sum_add_distrib, sum_sub_distrib, sum_sub_distrib, sum_prob, hq.2, ← sum_mul, hq.2, mean, shannon]
  ring

/-- Expected score plus entropy is at most the log-normaliser. -/
theorem variational [Nonempty ι] (s q : ι → ℝ) (hq : IsDist q) : mean q s + shannon q ≤ Real.log (Z s) := by
  have h := gap s q hq
  have h0 : 0 ≤ ∑ y, ((prob s y - q y) - q y * (Real.log (prob s y) - Real.log (q y))) := sum_nonneg fun y _ => sub_nonneg.2 (term_le (hq.1 y) (prob_pos s y))
  linarith

/-- With equality for the Gibbs distribution only. -/
theorem variational_eq [Nonempty ι] (s q : ι → ℝ) (hq : IsDist q) : mean q s + shannon q = Real.log (Z s) ↔ q = prob s := by
  constructor
  · intro he
    have h := gap s q hq
    rw [he, sub_self] at h
    funext y
    have := (sum_eq_zero_iff_of_nonneg fun y _ => sub_nonneg.2 (term_le (hq.1 y) (prob_pos s y))).1 h y (mem_univ y)
    exact term_eq (hq.1 y) (prob_pos s y) (by linarith)
  · rintro rfl
    have := entropy_eq s
    unfold entropy expect at this
    unfold mean shannon
    linarith

/-- Among the distributions that give the parts `x ∈ X` the same expected numbers, the Gibbs distribution has the largest entropy, and is the only one that has it. -/
theorem maxEntropy [Nonempty ι] {κ : Type} (X : Finset κ) (φ : κ → ℝ) (ev : ι → κ → ℝ) (s q : ι → ℝ) (hs : ∀ y, s y = ∑ x ∈ X, φ x * ev y x) (hq : IsDist q)
    (hm : ∀ x ∈ X, mean q (fun y => ev y x) = mean (prob s) fun y => ev y x) : shannon q ≤ entropy s ∧ (shannon q = entropy s ↔ q = prob s) := by
  have hl : ∀ r : ι → ℝ, mean r s = ∑ x ∈ X, φ x * mean r fun y => ev y x := fun r => by
    simp only [mean, hs, mul_sum]
    rw [sum_comm]
    exact sum_congr rfl fun x _ => sum_congr rfl fun y _ => by ring
  have he : mean q s = expect s s := by
    change _ = mean (prob s) s
    rw [hl q, hl (prob s)]
    exact sum_congr rfl fun x hx => by rw [hm x hx]
  have h1 := variational s q hq
  have h2 := variational_eq s q hq
  have h3 := entropy_eq s
  refine ⟨by linarith, ?_⟩
  rw [← h2]
  constructor <;> intro h <;> linarith

end Spec.Gibbs
