import Mathlib.Analysis.Calculus.Deriv.MeanValue
import Verif.Proofs.Covariance
import Verif.Proofs.Likelihood
import Verif.Proofs.Stability

/-! The log-normaliser lies below a parabola that touches it; gradient steps. -/

open Finset hiding expect

noncomputable section
namespace Spec.Gibbs

variable {ι : Type} [Fintype ι]

theorem cov_self_le [Nonempty ι] (s d : ι → ℝ) {M : ℝ} (h : ∀ y, |d y| ≤ M) : cov s d d ≤ M ^ 2 := by
  have h1 : expect s (fun y => d y * d y) ≤ M ^ 2 := by
    have h2 : ∀ y, |d y * d y| ≤ M ^ 2 := fun y => by
      rw [abs_mul, sq]
      exact mul_le_mul (h y) (h y) (abs_nonneg _) ((abs_nonneg _).trans (h y))
    exact (le_abs_self _).trans (abs_expect_le s _ h2)
  have h2 : 0 ≤ expect s d * expect s d := mul_self_nonneg _
  unfold cov
  linarith

/-- Along a line of scores that moves no structure by more than `M`, the log-normaliser stays below the tangent plus `M² / 2`. -/
theorem le_quadratic [Nonempty ι] (s s' : ι → ℝ) {M : ℝ} (h : ∀ y, |s' y - s y| ≤ M) :
    Real.log (Z s') ≤ Real.log (Z s) + expect s (fun y => s' y - s y) + M ^ 2 / 2 := by
  set d : ι → ℝ := fun y => s' y - s y with hd
  let F : ℝ → ℝ := fun t => Real.log (Z fun y => s y + t * d y)
  let G : ℝ → ℝ := fun t => expect (fun y => s y + t * d y) d
  have hF : ∀ t, HasDerivAt F (G t) t := by
    intro t
    have h1 := hasDerivAt_logZ (fun y => s y + t * d y) d
    have h3 := HasDerivAt.comp_sub_const t t (f := fun u => Real.log (Z fun y => s y + t * d y + u * d y)) (f' := G t) (by rw [sub_self]; exact h1)
    have e : F = fun u => Real.log (Z fun y => s y + t * d y + (u - t) * d y) := by
      funext u
      simp only [F]
      congr 2
      funext y
      ring
    rw [e]
    exact h3
  have hG : ∀ t, HasDerivAt G (cov (fun y => s y + t * d y) d d) t := by
    intro t
    have h1 := hasDerivAt_expect (fun y => s y + t * d y) d d
    have h3 := HasDerivAt.comp_sub_const t t (f := fun u => expect (fun y => s y + t * d y + u * d y) d) (by rw [sub_self]; exact h1)
    have e : G = fun u => expect (fun y => s y + t * d y + (u - t) * d y) d := by
      funext u
      simp only [G]
      congr 1
      funext y
      ring
    rw [e]
    exact h3
  have a1 : Antitone fun t => G t - M ^ 2 * t := by
    have hd : ∀ t, HasDerivAt (fun t => G t - M ^ 2 * t) (cov (fun y => s y + t * d y) d d - M ^ 2) t := fun t => by
      simpa using (hG t).fun_sub ((hasDerivAt_id t).const_mul (M ^ 2))
    refine antitone_of_deriv_nonpos (fun t => (hd t).differentiableAt) fun t => ?_
    rw [(hd t).deriv]
    have := cov_self_le (fun y => s y + t * d y) d h
    linarith
  have a2 : AntitoneOn (fun t => F t - G 0 * t - M ^ 2 / 2 * t ^ 2) (Set.Ici 0) := by
    have hd : ∀ t, HasDerivAt (fun t => F t - G 0 * t - M ^ 2 / 2 * t ^ 2) (G t - G 0 - M ^ 2 * t) t := fun t => by
      have := ((hF t).sub ((hasDerivAt_id t).const_mul (G 0))).sub (((hasDerivAt_id t).pow 2).const_mul (M ^ 2 / 2))
      refine this.congr_deriv ?_
      simp
      ring
    refine antitoneOn_of_deriv_nonpos (convex_Ici 0) (fun t _ => (hd t).continuousAt.continuousWithinAt) (fun t _ => (hd t).differentiableAt.differentiableWithinAt) fun t ht => ?_
    rw [(hd t).deriv]
    have ht : (0 : ℝ) ≤ t := by
      rw [interior_Ici] at ht
      exact le_of_lt ht
    have := a1 ht
    simp only [mul_zero, sub_zero] at this
    linarith
  have := a2 (Set.mem_Ici.2 le_rfl) (Set.mem_Ici.2 zero_le_one) zero_le_one
  have e0 : F 0 = Real.log (Z s) := by simp [F]
  have e1 : F 1 = Real.log (Z s') := by simp [F, hd]
  have e2 : G 0 = expect s d := by simp [G]
  simp only [e0, e1, e2] at this
  linarith

end Spec.Gibbs

open Spec Rounding

namespace Generic
namespace BatchDP
variable {A : Algo} {lengths : Option (List ℕ)} {B : ℕ} {E : ℕ → List ℕ → Prop}
  {ι π : ℕ → Type} [∀ b, Fintype (ι b)] [∀ b, Fintype (π b)] {parts : ∀ b, ι b → Multiset (List ℕ)} {ones : ∀ b, ι b → ℕ}
  {atoms : ∀ b, π b → Multiset Atom}

/-- `partition` of the potentials `q` lies below the tangent at `p` plus half the square of the largest change of a score. -/
theorem parabola {p q : A.T ℝ} {val val' : List ℕ → ℝ} (D : BatchDP A p lengths B val E parts ones atoms) (D' : BatchDP A q lengths B val' E parts ones atoms)
    {μ : List ℕ → ℝ} (hμ : Dist.marginals A p lengths = .ok μ) (b : ℕ) (hb : b < B) {κ : Type} (X : Finset κ) (f : κ → List ℕ) (hf : Set.InjOn f X)
    (hX : ∀ e, E b e → ∃ x ∈ X, f x = e) (hh : ∀ x ∈ X, (f x).head? = some b) (hm : ∀ x ∈ X, ∀ y, Atom.masked (f x) ∉ atoms b y)
    {d : List ℕ → ℝ} (hv : ∀ e, E b e → |val' e - val e| ≤ d e) {K : ℝ}
    (hK : AllE (· ≤ K) (A.run (Rounding.cost 0 0 fun _ => 0) (A.map (fun x : ℝ × List ℕ => d x.2) (A.index p)) lengths)) :
    ∃ z z', rowValue (Dist.partition A p lengths) b = some z ∧ rowValue (Dist.partition A q lengths) b = some z' ∧
      z' ≤ z + ∑ x ∈ X, μ (f x) * (val' (f x) - val (f x)) + K ^ 2 / 2 := by
  have := D.nonempty_all b hb
  refine ⟨_, _, by rw [D.partition_eq, rowValue_ok _ _ _ hb], by rw [D'.partition_eq, rowValue_ok _ _ _ hb], ?_⟩
  rw [← D.slope val' hμ b hb X f hf hX hh hm]
  obtain ⟨row, r1, r2⟩ := D.rows
  rw [r1 (Rounding.cost 0 0 fun _ => 0) fun _ e => d e] at hK
  exact Gibbs.le_quadratic _ _ fun t => ((r2 b hb).scores_near hv t).trans (hK _ rfl _ (List.mem_map.2 ⟨b, List.mem_range.2 hb, rfl⟩))

end BatchDP

theorem mean_likelihood {κ V : Type} (X : Finset κ) {values : List V} (hne : values ≠ []) (L : V → ℝ) (x : κ → ℝ) (z : ℝ) (val : V → κ → ℝ)
    (hL : ∀ v ∈ values, L v = ∑ e ∈ X, x e * val v e - z) :
    (values.map L).sum / values.length = ∑ e ∈ X, x e * ((values.map (val · e)).sum / values.length) - z := by
  have hm : (0 : ℝ) < values.length := Nat.cast_pos.2 (List.length_pos_iff.2 hne)
  have h1 : (values.map L).sum = ∑ e ∈ X, x e * (values.map (val · e)).sum - values.length * z := by
    clear hm hne
    induction values with
    | nil => simp
    | cons v vs ih =>
      simp only [List.map_cons, List.sum_cons, List.length_cons]
      rw [ih (fun v hv => hL v (List.mem_cons_of_mem _ hv)), hL v List.mem_cons_self]
      simp only [mul_add, sum_add_distrib]
      push_cast
      ring
  rw [h1, sub_div, sum_div, mul_div_cancel_left₀ _ hm.ne']
  congr 1
  exact sum_congr rfl fun e _ => by rw [mul_div_assoc]

/-- A step along the gradient: if the normaliser lies below its parabolas, the mean of the log-likelihoods grows at least by a multiple of the squared gradient. -/
theorem ascent {κ V : Type} (X : Finset κ) (K η : ℝ) (hη : 0 ≤ η) (x x' : κ → ℝ) (val : V → κ → ℝ) (μ : κ → ℝ) (values : List V) (L L' : V → ℝ) (z z' : ℝ)
    (hL : ∀ v ∈ values, L v = ∑ e ∈ X, x e * val v e - z) (hL' : ∀ v ∈ values, L' v = ∑ e ∈ X, x' e * val v e - z')
    (hne : values ≠ []) (hx : ∀ e ∈ X, x' e = x e + η * ((values.map (val · e)).sum / values.length - μ e))
    (hz : ∀ c, 0 ≤ c → (∀ e ∈ X, |x' e - x e| ≤ c) → z' ≤ z + ∑ e ∈ X, μ e * (x' e - x e) + (K * c) ^ 2 / 2) :
    (values.map L).sum / values.length + η * (1 - K ^ 2 * η / 2) * ∑ e ∈ X, ((values.map (val · e)).sum / values.length - μ e) ^ 2 ≤ (values.map L').sum / values.length := by
  have hm : (0 : ℝ) < values.length := Nat.cast_pos.2 (List.length_pos_iff.2 hne)
  set g : κ → ℝ := fun e => (values.map (val · e)).sum / values.length - μ e with hg
  set Q : ℝ := ∑ e ∈ X, g e ^ 2 with hQ
  have hQ0 : 0 ≤ Q := sum_nonneg fun e _ => sq_nonneg _
  rw [mean_likelihood X hne L x z val hL, mean_likelihood X hne L' x' z' val hL']
  have h1 := hz (η * Real.sqrt Q) (mul_nonneg hη (Real.sqrt_nonneg _)) fun e he => by
    rw [hx e he, add_sub_cancel_left, abs_mul, abs_of_nonneg hη]
    exact mul_le_mul_of_nonneg_left (Real.abs_le_sqrt (single_le_sum (f := fun e => g e ^ 2) (fun e _ => sq_nonneg _) he)) hη
  have h2 : (K * (η * Real.sqrt Q)) ^ 2 / 2 = K ^ 2 * η ^ 2 / 2 * Q := by
    rw [mul_pow, mul_pow, Real.sq_sqrt hQ0]; ring
  have h3 : ∑ e ∈ X, x' e * ((values.map (val · e)).sum / values.length) - ∑ e ∈ X, x e * ((values.map (val · e)).sum / values.length) - ∑ e ∈ X, μ e * (x' e - x e) = η * Q := by
    rw [hQ, mul_sum, ← sum_sub_distrib, ← sum_sub_distrib]
    exact sum_congr rfl fun e he => by rw [hx e he]; simp only [hg]; ring
  rw [h2] at h1
  nlinarith

end Generic
