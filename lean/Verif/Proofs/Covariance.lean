import Verif.Proofs.Derivative
import Verif.Spec.Covariance

/-! The derivative of an expectation is a covariance; the derivative of `marginals` and of `entropy` for every dynamic program of the form `BatchDP`. -/

open Finset Spec

noncomputable section
namespace Spec.Gibbs
variable {ι : Type} [Fintype ι]

theorem expect_eq_div (s f : ι → ℝ) : expect s f = (∑ y, Real.exp (s y) * f y) / Z s := by
  rw [expect, sum_div]
  exact sum_congr rfl fun y _ => by rw [prob]; ring

/-- The derivative of an expectation along a line of scores. -/
theorem hasDerivAt_expect [Nonempty ι] (s c f : ι → ℝ) : HasDerivAt (fun t => expect (fun y => s y + t * c y) f) (cov s f c) 0 := by
  have h0 : ∀ g : ι → ℝ, HasDerivAt (fun t : ℝ => ∑ y, Real.exp (s y + t * c y) * g y) (∑ y, Real.exp (s y) * (g y * c y)) 0 := by
    intro g
    refine HasDerivAt.fun_sum fun y _ => ?_
    have h : HasDerivAt (fun t : ℝ => s y + t * c y) (c y) 0 := by
      simpa using ((hasDerivAt_id (0 : ℝ)).mul_const (c y)).const_add (s y)
    refine (h.exp.mul_const (g y)).congr_deriv ?_
    simp only [zero_mul, add_zero]
    ring
  have hZ : HasDerivAt (fun t : ℝ => Z fun y => s y + t * c y) (∑ y, Real.exp (s y) * c y) 0 := by
    simpa [Z] using h0 fun _ => 1
  have h2 : (Z fun y => s y + 0 * c y) = Z s := by simp
  have hne := (Z_pos s).ne'
  have h3 := (h0 f).div hZ (by rw [h2]; exact hne)
  have e1 : (fun t => expect (fun y => s y + t * c y) f) =
      (fun t : ℝ => ∑ y, Real.exp (s y + t * c y) * f y) / fun t : ℝ => Z fun y => s y + t * c y := by
    funext t
    exact expect_eq_div _ _
  rw [e1]
  refine h3.congr_deriv ?_
  rw [h2]
  simp only [zero_mul, add_zero]
  rw [cov, expect_eq_div, expect_eq_div, expect_eq_div]
  field_simp

theorem cov_comm (s f g : ι → ℝ) : cov s f g = cov s g f := by
  unfold cov
  rw [mul_comm (expect s f)]
  congr 2
  funext y
  exact mul_comm _ _

/-- The covariance of a quantity with itself is not negative. -/
theorem cov_self_nonneg [Nonempty ι] (s f : ι → ℝ) : 0 ≤ cov s f f := by
  have h : cov s f f = ∑ y, prob s y * (f y - expect s f) ^ 2 := by
    have : ∀ y, prob s y * (f y - expect s f) ^ 2 = prob s y * (f y * f y) - 2 * expect s f * (prob s y * f y) + prob s y * expect s f ^ 2 := fun y => by ring
    rw [sum_congr rfl fun y _ => this y, sum_add_distrib, sum_sub_distrib, ← mul_sum, ← sum_mul, sum_prob]
    rw [cov]
    change _ = expect s (fun y => f y * f y) - 2 * expect s f * expect s f + _
    ring
  rw [h]
  exact sum_nonneg fun y _ => mul_nonneg (prob_nonneg s y) (sq_nonneg _)

theorem cov_const [Nonempty ι] (s f : ι → ℝ) (a : ℝ) : cov s f (fun _ => a) = 0 := by
  unfold cov expect
  rw [← sum_mul, sum_prob, one_mul, sum_mul]
  rw [sub_eq_zero]
  exact sum_congr rfl fun y _ => by ring

/-- The derivative of the entropy along a line of scores. -/
theorem hasDerivAt_entropy [Nonempty ι] (s c : ι → ℝ) : HasDerivAt (fun t => entropy fun y => s y + t * c y) (- cov s s c) 0 := by
  have e : (fun t : ℝ => entropy fun y => s y + t * c y) = fun t => Real.log (Z fun y => s y + t * c y) -
      (expect (fun y => s y + t * c y) s + t * expect (fun y => s y + t * c y) c) := by
    funext t
    rw [entropy_eq]
    congr 1
    simp only [expect, mul_add, sum_add_distrib, mul_sum]
    congr 1
    exact sum_congr rfl fun y _ => by ring
  rw [e]
  have h1 := hasDerivAt_logZ s c
  have h2 := hasDerivAt_expect s c s
  have h3 := (hasDerivAt_id (0 : ℝ)).mul (hasDerivAt_expect s c c)
  refine (h1.sub (h2.add h3)).congr_deriv ?_
  simp

theorem cov_exact {π : Type} [Fintype π] [IsEmpty π] (s : ι → ℝ) (ph : π → ℝ) (f g : ι ⊕ π → ℝ) :
    cov (Sum.elim s ph) f g = cov s (fun y => f (Sum.inl y)) fun y => g (Sum.inl y) := by
  unfold cov
  rw [expect_exact, expect_exact, expect_exact]

theorem expect_nonneg (s f : ι → ℝ) (h : ∀ y, 0 ≤ f y) : 0 ≤ expect s f := sum_nonneg fun y _ => mul_nonneg (prob_nonneg s y) (h y)

theorem expect_le [Nonempty ι] (s f : ι → ℝ) {M : ℝ} (h : ∀ y, 0 ≤ f y ∧ f y ≤ M) : expect s f ≤ M :=
  (le_abs_self _).trans (abs_expect_le s f fun y => by rw [abs_of_nonneg (h y).1]; exact (h y).2)

/-- Covariances with and without the phantoms. -/
theorem cov_elim_sub [Nonempty ι] {π : Type} [Fintype π] (s : ι → ℝ) (ph : π → ℝ) (f g : ι ⊕ π → ℝ) {M : ℝ} (hf : ∀ y, 0 ≤ f y ∧ f y ≤ M)
    (hg : ∀ y, 0 ≤ g y ∧ g y ≤ M) :
    |cov (Sum.elim s ph) f g - cov s (fun y => f (Sum.inl y)) fun y => g (Sum.inl y)| ≤ 3 * (excess s ph * M ^ 2) := by
  have h0 := excess_nonneg s ph
  have key : ∀ (f : ι ⊕ π → ℝ) (D : ℝ), (∀ y, 0 ≤ f y ∧ f y ≤ D) → |expect (Sum.elim s ph) f - expect s fun y => f (Sum.inl y)| ≤ excess s ph * D := by
    intro f D hf
    have e : f = Sum.elim (fun y => f (Sum.inl y)) fun y => f (Sum.inr y) := by funext y; cases y <;> rfl
    conv_lhs => rw [e]
    exact expect_elim_sub_nonneg _ _ _ _ (fun y => hf _) fun y => hf _
  have k1 := key _ (M ^ 2) fun y => (⟨mul_nonneg (hf y).1 (hg y).1, by
    rw [sq]; exact mul_le_mul (hf y).2 (hg y).2 (hg y).1 ((hf y).1.trans (hf y).2)⟩ : 0 ≤ f y * g y ∧ f y * g y ≤ M ^ 2)
  have k2 := key f M hf
  have k3 := key g M hg
  have b1 := expect_nonneg (Sum.elim s ph) g fun y => (hg y).1
  have b2 := expect_le (Sum.elim s ph) g hg
  have b3 := expect_nonneg s (fun y => f (Sum.inl y)) fun y => (hf _).1
  have b4 := expect_le s (fun y => f (Sum.inl y)) fun y => hf _
  unfold cov
  set x := expect (Sum.elim s ph) f
  set y := expect (Sum.elim s ph) g
  set x' := expect s fun y => f (Sum.inl y)
  set y' := expect s fun y => g (Sum.inl y)
  set u := expect (Sum.elim s ph) fun y => f y * g y
  set u' := expect s fun y => f (Sum.inl y) * g (Sum.inl y)
  have e : u - x * y - (u' - x' * y') = (u - u') - (x - x') * y - x' * (y - y') := by ring
  rw [e]
  have c1 : |(x - x') * y| ≤ excess s ph * M * M := by
    rw [abs_mul, abs_of_nonneg b1]
    exact mul_le_mul k2 b2 b1 (mul_nonneg h0 (b1.trans b2))
  have c2 : |x' * (y - y')| ≤ M * (excess s ph * M) := by
    rw [abs_mul, abs_of_nonneg b3]
    exact mul_le_mul b4 k3 (abs_nonneg _) (b3.trans b4)
  have := abs_sub (u - u' - (x - x') * y) (x' * (y - y'))
  have := abs_sub (u - u') ((x - x') * y)
  nlinarith

end Spec.Gibbs

namespace Generic.BatchDP
variable {A : Algo} {lengths : Option (List ℕ)} {B : ℕ} {E : ℕ → List ℕ → Prop}
  {ι π : ℕ → Type} [∀ b, Fintype (ι b)] [∀ b, Fintype (π b)] {parts : ∀ b, ι b → Multiset (List ℕ)} {ones : ∀ b, ι b → ℕ}
  {atoms : ∀ b, π b → Multiset Atom}

/-- How often a structure uses the potential of an entry. -/
def uses (parts : ι b → Multiset (List ℕ)) (ones : ι b → ℕ) (atoms : π b → Multiset Atom) (e : List ℕ) (y : ι b ⊕ π b) : ℝ :=
  (((allAtoms parts ones atoms y).filterMap Atom.potential).count e : ℕ)

/-- No structure of a row uses the entries of another row. -/
theorem uses_other {γ : Type} {p : A.T γ} {val : List ℕ → γ} (D : BatchDP A p lengths B val E parts ones atoms) {b : ℕ} (hb : b < B) {e : List ℕ}
    (he : e.head? ≠ some b) (y : ι b ⊕ π b) : uses (parts b) (ones b) (atoms b) e y = 0 := by
  rw [uses, Multiset.count_eq_zero_of_notMem, Nat.cast_zero]
  intro hc
  obtain ⟨row, -, hr⟩ := D.rows
  obtain ⟨a, ha, hae⟩ := (Multiset.mem_filterMap _ _).1 hc
  have : a = .pot e := by cases a <;> simp_all [Atom.potential]
  subst this
  exact he ((hr b hb).head e ((hr b hb).pot_entry ha))

/-- `marginals` where the entry is never overwritten. -/
theorem marginals_uses {p : A.T ℝ} {val : List ℕ → ℝ} (D : BatchDP A p lengths B val E parts ones atoms) :
    ∃ μ, Dist.marginals A p lengths = .ok μ ∧ ∀ b < B, ∀ e : List ℕ, e.head? = some b → (∀ y, Atom.masked e ∉ atoms b y) →
      μ e = Gibbs.expect (tot (parts b) (atoms b) Semirings.negInf val) (uses (parts b) (ones b) (atoms b) e) := by
  obtain ⟨μ, h1, h2⟩ := D.marginals_eq
  refine ⟨μ, h1, fun b hb e he hm => ?_⟩
  rw [h2 b hb e he]
  congr 1
  funext y
  rw [uses, count_link]
  cases y with
  | inl y =>
    simp only [allAtoms, Sum.elim_inl, Multiset.mem_add, Multiset.mem_map, reduceCtorEq, and_false, exists_false, false_or]
    intro hc
    cases Multiset.eq_of_mem_replicate hc
  | inr y => exact hm y

section line
variable {p : ℝ → A.T ℝ} {val : ℝ → List ℕ → ℝ} {e' : List ℕ} (D : ∀ t, BatchDP A (p t) lengths B (val t) E parts ones atoms)
  (hd : ∀ t, ∀ b < B, ∀ e, E b e → val t e = val 0 e + t * if e = e' then 1 else 0)
include D hd

theorem tot_nudge (t : ℝ) (b : ℕ) (hb : b < B) : tot (parts b) (atoms b) Semirings.negInf (val t) =
    fun y => tot (parts b) (atoms b) Semirings.negInf (val 0) y + t * uses (parts b) (ones b) (atoms b) e' y := by
  funext y
  rw [(D t).tot_line Semirings.negInf (val t) (val 0) (fun e => if e = e' then 1 else 0) t b hb (hd t b hb) y, sum_weight_single]
  rfl

/-- Moving one potential moves the entries of `marginals` by the covariance. -/
theorem marginals_cov (b : ℕ) (hb : b < B) (e : List ℕ) (he : e.head? = some b) (hm : ∀ y, Atom.masked e ∉ atoms b y) :
    HasEntryDeriv (fun t => Dist.marginals A (p t) lengths) (· e)
      (Gibbs.cov (tot (parts b) (atoms b) Semirings.negInf (val 0)) (uses (parts b) (ones b) (atoms b) e) (uses (parts b) (ones b) (atoms b) e')) := by
  have := (D 0).nonempty_all b hb
  refine ⟨_, fun t => ?_, Gibbs.hasDerivAt_expect _ _ _⟩
  obtain ⟨μ, h1, h2⟩ := (D t).marginals_uses
  refine ⟨μ, h1, ?_⟩
  beta_reduce
  rw [h2 b hb e he hm, tot_nudge D hd t b hb]

/-- Moving one potential moves `entropy` by minus the covariance with the score. -/
theorem entropy_cov (b : ℕ) (hb : b < B) : HasRowDeriv (fun t => Dist.entropy A (p t) lengths) b
    (- Gibbs.cov (tot (parts b) (atoms b) Semirings.negInf (val 0)) (tot (parts b) (atoms b) Semirings.negInf (val 0))
      (uses (parts b) (ones b) (atoms b) e')) := by
  have := (D 0).nonempty_all b hb
  refine ⟨_, fun t => ?_, Gibbs.hasDerivAt_entropy _ _⟩
  beta_reduce
  rw [(D t).entropy_eq, rowValue_ok _ _ _ hb, tot_nudge D hd t b hb]

end line

/-- A potential is used at most as often as the gradient flows to it. -/
theorem potential_le_link (e : List ℕ) (m : Multiset Atom) : (m.filterMap Atom.potential).count e ≤ (m.filterMap Atom.link).count e := by
  induction m using Multiset.induction_on with
  | empty => simp
  | cons a m ih =>
    cases a with
    | pot e' =>
      rw [Multiset.filterMap_cons_some Atom.link _ _ (b := e') rfl, Multiset.filterMap_cons_some Atom.potential _ _ (b := e') rfl, Multiset.count_cons, Multiset.count_cons]
      omega
    | masked e' =>
      rw [Multiset.filterMap_cons_some Atom.link _ _ (b := e') rfl, Multiset.filterMap_cons_none _ _ rfl, Multiset.count_cons]
      omega
    | zero => rwa [Multiset.filterMap_cons_none _ _ rfl, Multiset.filterMap_cons_none _ _ rfl]
    | one => rwa [Multiset.filterMap_cons_none _ _ rfl, Multiset.filterMap_cons_none _ _ rfl]

theorem uses_inl (b : ℕ) (e : List ℕ) (y : ι b) : uses (parts b) (ones b) (atoms b) e (Sum.inl y) = ((parts b y).count e : ℕ) := by
  rw [uses, ← count_link, RowDP.links_inl]
  simp only [allAtoms, Sum.elim_inl, Multiset.mem_add, Multiset.mem_map, reduceCtorEq, and_false, exists_false, false_or]
  intro hc
  cases Multiset.eq_of_mem_replicate hc

/-- Moving one potential does not move the other rows. -/
theorem marginals_cov_other {p : ℝ → A.T ℝ} {val : ℝ → List ℕ → ℝ} {e' : List ℕ} (D : ∀ t, BatchDP A (p t) lengths B (val t) E parts ones atoms)
    (hd : ∀ t, ∀ b < B, ∀ e, E b e → val t e = val 0 e + t * if e = e' then 1 else 0)
    (b : ℕ) (hb : b < B) (he' : e'.head? ≠ some b) (e : List ℕ) (he : e.head? = some b) (hm : ∀ y, Atom.masked e ∉ atoms b y) :
    HasEntryDeriv (fun t => Dist.marginals A (p t) lengths) (· e) 0 := by
  have := (D 0).nonempty_all b hb
  have h := marginals_cov D hd b hb e he hm
  rwa [show uses (parts b) (ones b) (atoms b) e' = fun _ => 0 from funext fun y => (D 0).uses_other hb he' y, Gibbs.cov_const] at h

theorem entropy_cov_other {p : ℝ → A.T ℝ} {val : ℝ → List ℕ → ℝ} {e' : List ℕ} (D : ∀ t, BatchDP A (p t) lengths B (val t) E parts ones atoms)
    (hd : ∀ t, ∀ b < B, ∀ e, E b e → val t e = val 0 e + t * if e = e' then 1 else 0) (b : ℕ) (hb : b < B) (he' : e'.head? ≠ some b) :
    HasRowDeriv (fun t => Dist.entropy A (p t) lengths) b 0 := by
  have := (D 0).nonempty_all b hb
  have h := entropy_cov D hd b hb
  rwa [show uses (parts b) (ones b) (atoms b) e' = fun _ => 0 from funext fun y => (D 0).uses_other hb he' y, Gibbs.cov_const, neg_zero] at h

/-- With stand-ins: the derivative of `marginals` is symmetric, not negative on the diagonal, and close to the covariance. -/
theorem marginals_cov_leaky {p : ℝ → A.T ℝ} {val : ℝ → List ℕ → ℝ} {e' : List ℕ} (D : ∀ t, BatchDP A (p t) lengths B (val t) E parts ones atoms)
    (hd : ∀ t, ∀ b < B, ∀ e, E b e → val t e = val 0 e + t * if e = e' then 1 else 0) (hne : ∀ b < B, Nonempty (ι b)) {M : ℝ}
    (hM : ∀ b < B, ∀ e y, ((parts b y).count e : ℝ) ≤ M) (hM' : ∀ b < B, ∀ e y, (((atoms b y).filterMap Atom.link).count e : ℝ) ≤ M)
    (b : ℕ) (hb : b < B) (e : List ℕ) (he : e.head? = some b) (hm : ∀ y, Atom.masked e ∉ atoms b y) :
    HasEntryDeriv (fun t => Dist.marginals A (p t) lengths) (· e)
      (Gibbs.cov (tot (parts b) (atoms b) Semirings.negInf (val 0)) (uses (parts b) (ones b) (atoms b) e) (uses (parts b) (ones b) (atoms b) e')) ∧
    |Gibbs.cov (tot (parts b) (atoms b) Semirings.negInf (val 0)) (uses (parts b) (ones b) (atoms b) e) (uses (parts b) (ones b) (atoms b) e') -
      Gibbs.cov (realScore (parts b) (val 0)) (fun y => (parts b y).count e) (fun y => (parts b y).count e')| ≤ 3 * (ex parts atoms (val 0) b * M ^ 2) := by
  refine ⟨marginals_cov D hd b hb e he hm, ?_⟩
  have := hne b hb
  have hu : ∀ e (y : ι b ⊕ π b), 0 ≤ uses (parts b) (ones b) (atoms b) e y ∧ uses (parts b) (ones b) (atoms b) e y ≤ M := by
    intro e y
    refine ⟨Nat.cast_nonneg _, ?_⟩
    cases y with
    | inl y => rw [uses_inl]; exact hM b hb e y
    | inr y => exact le_trans (Nat.cast_le.2 (potential_le_link e (atoms b y))) (hM' b hb e y)
  have h := Gibbs.cov_elim_sub (realScore (parts b) (val 0)) (phScore (atoms b) Semirings.negInf (val 0)) _ _ (hu e) (hu e')
  simp only [uses_inl] at h
  exact h

section exact
variable [∀ b, IsEmpty (π b)] {p : ℝ → A.T ℝ} {val : ℝ → List ℕ → ℝ} {e' : List ℕ} (D : ∀ t, BatchDP A (p t) lengths B (val t) E parts ones atoms)
  (hd : ∀ t, ∀ b < B, ∀ e, E b e → val t e = val 0 e + t * if e = e' then 1 else 0)
include D hd

theorem marginals_cov_exact (b : ℕ) (hb : b < B) (e : List ℕ) (he : e.head? = some b) :
    HasEntryDeriv (fun t => Dist.marginals A (p t) lengths) (· e)
      (Gibbs.cov (realScore (parts b) (val 0)) (fun y => (parts b y).count e) (fun y => (parts b y).count e')) := by
  have := marginals_cov D hd b hb e he fun y => isEmptyElim y
  rw [tot, Gibbs.cov_exact] at this
  simpa only [uses_inl] using this

theorem entropy_cov_exact (b : ℕ) (hb : b < B) : HasRowDeriv (fun t => Dist.entropy A (p t) lengths) b
    (- Gibbs.cov (realScore (parts b) (val 0)) (realScore (parts b) (val 0)) (fun y => (parts b y).count e')) := by
  have := entropy_cov D hd b hb
  rw [tot, Gibbs.cov_exact] at this
  simpa only [uses_inl, Sum.elim_inl] using this

end exact
end Generic.BatchDP
