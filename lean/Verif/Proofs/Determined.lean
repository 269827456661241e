import Verif.Proofs.Likelihood

/-! The marginals determine a distribution. -/

open Finset Spec

noncomputable section
namespace Spec.Gibbs
variable {ι : Type} [Fintype ι]

/-- If the divergences in both directions add up to 0, the distributions are the same. -/
theorem of_both [Nonempty ι] (s t : ι → ℝ) (h : expect s (fun y => t y - s y) + expect t (fun y => s y - t y) = 0) (y : ι) : s y - Real.log (Z s) = t y - Real.log (Z t) := by
  have key : ∑ y, (prob s y - prob t y) * (Real.log (prob s y) - Real.log (prob t y)) = 0 := by
    have h1 : ∀ y, (prob s y - prob t y) * (Real.log (prob s y) - Real.log (prob t y)) =
        -(prob s y * (t y - s y) + prob t y * (s y - t y)) + (prob s y - prob t y) * (Real.log (Z t) - Real.log (Z s)) := fun y => by
      rw [log_prob, log_prob]; ring
    rw [sum_congr rfl fun y _ => h1 y, sum_add_distrib, sum_neg_distrib, ← sum_mul, sum_sub_distrib, sum_prob, sum_prob, sum_add_distrib]
    unfold expect at h
    rw [h]
    ring
  have hnn : ∀ y ∈ univ, 0 ≤ (prob s y - prob t y) * (Real.log (prob s y) - Real.log (prob t y)) := fun y _ => by
    have hs := prob_pos s y
    have ht := prob_pos t y
    rcases le_total (prob s y) (prob t y) with hc | hc
    · exact mul_nonneg_of_nonpos_of_nonpos (by linarith) (by linarith [Real.log_le_log hs hc])
    · exact mul_nonneg (by linarith) (by linarith [Real.log_le_log ht hc])
  have h0 := (sum_eq_zero_iff_of_nonneg hnn).1 key y (mem_univ y)
  rw [← log_prob, ← log_prob]
  rcases mul_eq_zero.1 h0 with h2 | h2
  · rw [sub_eq_zero.1 h2]
  · exact sub_eq_zero.1 h2

/-- If the log-normaliser is not strictly below the mean at the midpoint, the distributions are the same. -/
theorem of_mid [Nonempty ι] (s t r : ι → ℝ) (hr : ∀ y, r y = (s y + t y) / 2) (d : ℝ) (h1 : Real.log (Z s) + d / 2 ≤ Real.log (Z r))
    (h2 : Real.log (Z t) - d / 2 ≤ Real.log (Z r)) (y : ι) : s y - Real.log (Z s) = t y - Real.log (Z t) := by
  have hs := Z_pos s
  have ht := Z_pos t
  have hrp := Z_pos r
  have e1 : ∑ y, Real.exp (s y - Real.log (Z s)) = 1 := by
    simp only [Real.exp_sub, Real.exp_log hs, ← sum_div]
    exact div_self hs.ne'
  have e2 : ∑ y, Real.exp (t y - Real.log (Z t)) = 1 := by
    simp only [Real.exp_sub, Real.exp_log ht, ← sum_div]
    exact div_self ht.ne'
  have e3 : 1 ≤ ∑ y, Real.exp (r y - (Real.log (Z s) + Real.log (Z t)) / 2) := by
    simp only [Real.exp_sub, ← sum_div]
    rw [le_div_iff₀ (Real.exp_pos _), one_mul]
    calc Real.exp ((Real.log (Z s) + Real.log (Z t)) / 2) ≤ Real.exp (Real.log (Z r)) := Real.exp_le_exp.2 (by linarith)
      _ = Z r := Real.exp_log hrp
  have key : ∑ y, (Real.exp ((s y - Real.log (Z s)) / 2) - Real.exp ((t y - Real.log (Z t)) / 2)) ^ 2 ≤ 0 := by
    have h3 : ∀ y, (Real.exp ((s y - Real.log (Z s)) / 2) - Real.exp ((t y - Real.log (Z t)) / 2)) ^ 2 =
        Real.exp (s y - Real.log (Z s)) + Real.exp (t y - Real.log (Z t)) - 2 * Real.exp (r y - (Real.log (Z s) + Real.log (Z t)) / 2) := fun y => by
      have a1 : Real.exp (s y - Real.log (Z s)) = Real.exp ((s y - Real.log (Z s)) / 2) ^ 2 := by rw [← Real.exp_nat_mul]; congr 1; push_cast; ring
      have a2 : Real.exp (t y - Real.log (Z t)) = Real.exp ((t y - Real.log (Z t)) / 2) ^ 2 := by rw [← Real.exp_nat_mul]; congr 1; push_cast; ring
      have a3 : Real.exp (r y - (Real.log (Z s) + Real.log (Z t)) / 2) = Real.exp ((s y - Real.log (Z s)) / 2) * Real.exp ((t y - Real.log (Z t)) / 2) := by
        rw [← Real.exp_add, hr]; congr 1; ring
      rw [a1, a2, a3]; ring
    rw [sum_congr rfl fun y _ => h3 y, sum_sub_distrib, sum_add_distrib, ← mul_sum, e1, e2]
    linarith
  have h0 := (sum_eq_zero_iff_of_nonneg fun y _ => sq_nonneg _).1 (le_antisymm key (sum_nonneg fun y _ => sq_nonneg _)) y (mem_univ y)
  have h4 := Real.exp_injective (sub_eq_zero.1 (pow_eq_zero_iff (two_ne_zero)|>.1 h0))
  linarith

end Spec.Gibbs

namespace Generic.BatchDP
variable {A : Algo} {lengths : Option (List ℕ)} {B : ℕ} {E : ℕ → List ℕ → Prop}
  {ι π : ℕ → Type} [∀ b, Fintype (ι b)] [∀ b, Fintype (π b)] {parts : ∀ b, ι b → Multiset (List ℕ)} {ones : ∀ b, ι b → ℕ}
  {atoms : ∀ b, π b → Multiset Atom}

/-- If `marginals` of `p` and `q` agree on a row, so do the scores of the structures of the row minus `partition`. -/
theorem determined {p q : A.T ℝ} {val val' : List ℕ → ℝ} (D : BatchDP A p lengths B val E parts ones atoms) (D' : BatchDP A q lengths B val' E parts ones atoms)
    {μ ν : List ℕ → ℝ} (hμ : Dist.marginals A p lengths = .ok μ) (hν : Dist.marginals A q lengths = .ok ν) (b : ℕ) (hb : b < B) {κ : Type} (X : Finset κ) (f : κ → List ℕ)
    (hf : Set.InjOn f X) (hX : ∀ e, E b e → ∃ x ∈ X, f x = e) (hh : ∀ x ∈ X, (f x).head? = some b) (hm : ∀ x ∈ X, ∀ y, Atom.masked (f x) ∉ atoms b y)
    (heq : ∀ x ∈ X, μ (f x) = ν (f x)) :
    ∃ z z', rowValue (Dist.partition A p lengths) b = some z ∧ rowValue (Dist.partition A q lengths) b = some z' ∧
      ∀ y, realScore (parts b) val y - z = realScore (parts b) val' y - z' := by
  have := D.nonempty_all b hb
  refine ⟨_, _, by rw [D.partition_eq, rowValue_ok _ _ _ hb], by rw [D'.partition_eq, rowValue_ok _ _ _ hb], fun y => ?_⟩
  refine Gibbs.of_both (tot (parts b) (atoms b) Semirings.negInf val) (tot (parts b) (atoms b) Semirings.negInf val') ?_ (Sum.inl y)
  rw [D.slope val' hμ b hb X f hf hX hh hm, D'.slope val hν b hb X f hf hX hh hm, ← sum_add_distrib]
  refine sum_eq_zero fun x hx => ?_
  rw [heq x hx]
  ring

end Generic.BatchDP
