import Verif.Proofs.Likelihood
import Verif.Spec.Reweight

/-! Changing one potential that a structure uses at most once: the new log-normaliser and the new marginal in closed form. -/

open Finset Spec

noncomputable section
namespace Spec.Gibbs
variable {ι : Type} [Fintype ι]

/-- Adding `δ` to the scores of some structures, whose probability is `m`, multiplies the normaliser by `1 - m + m exp δ`. -/
theorem Z_shift [Nonempty ι] (s t c : ι → ℝ) (δ : ℝ) (hc : ∀ y, c y = 0 ∨ c y = 1) (ht : ∀ y, t y = s y + δ * c y) :
    Z t = Z s * (1 - expect s c + expect s c * Real.exp δ) := by
  have hz := (Z_pos s).ne'
  have e : ∀ y, Real.exp (t y) = Z s * (prob s y + prob s y * c y * (Real.exp δ - 1)) := fun y => by
    rw [ht, Real.exp_add, prob]
    rcases hc y with h | h <;> rw [h] <;> field_simp <;> simp
  rw [Z, sum_congr rfl fun y _ => e y, ← mul_sum, sum_add_distrib, ← sum_mul, sum_prob]
  unfold expect
  ring

theorem expect_shift [Nonempty ι] (s t c : ι → ℝ) (δ : ℝ) (hc : ∀ y, c y = 0 ∨ c y = 1) (ht : ∀ y, t y = s y + δ * c y) :
    expect t c = expect s c * Real.exp δ / (1 - expect s c + expect s c * Real.exp δ) := by
  have hz := (Z_pos s).ne'
  have hf : 1 - expect s c + expect s c * Real.exp δ ≠ 0 := fun h => (Z_pos t).ne' (by rw [Z_shift s t c δ hc ht, h, mul_zero])
  have e : ∀ y, prob t y * c y = prob s y * c y * (Real.exp δ / (1 - expect s c + expect s c * Real.exp δ)) := fun y => by
    rw [prob, prob, Z_shift s t c δ hc ht, ht, Real.exp_add]
    rcases hc y with h | h
    · simp [h]
    · rw [h, mul_one]; field_simp
  rw [expect, sum_congr rfl fun y _ => e y, ← sum_mul, mul_div_assoc]
  rfl

/-- Both, with the logarithm. -/
theorem shift [Nonempty ι] (s t c : ι → ℝ) (δ : ℝ) (hc : ∀ y, c y = 0 ∨ c y = 1) (ht : ∀ y, t y = s y + δ * c y) :
    Real.log (Z t) = Real.log (Z s) + Real.log (1 - expect s c + expect s c * Real.exp δ) ∧ 0 < 1 - expect s c + expect s c * Real.exp δ := by
  have h := Z_shift s t c δ hc ht
  have hp : 0 < 1 - expect s c + expect s c * Real.exp δ := pos_of_mul_pos_right (h ▸ Z_pos t) (Z_pos s).le
  exact ⟨by rw [h, Real.log_mul (Z_pos s).ne' hp.ne'], hp⟩

end Spec.Gibbs

namespace Generic

namespace BatchDP
variable {A : Algo} {lengths : Option (List ℕ)} {B : ℕ} {E : ℕ → List ℕ → Prop}
  {ι π : ℕ → Type} [∀ b, Fintype (ι b)] [∀ b, Fintype (π b)] {parts : ∀ b, ι b → Multiset (List ℕ)} {ones : ∀ b, ι b → ℕ}
  {atoms : ∀ b, π b → Multiset Atom}

/-- A potential moved by `δ`: how often a structure uses it, and what that does to its score. -/
theorem tot_move {p : A.T ℝ} {val val' : List ℕ → ℝ} (D : BatchDP A p lengths B val E parts ones atoms) (b : ℕ) (hb : b < B) (e : List ℕ) (δ : ℝ)
    (hv : ∀ e', E b e' → val' e' = val e' + δ * if e' = e then 1 else 0) (hm : ∀ y, Atom.masked e ∉ atoms b y) (y : ι b ⊕ π b) :
    tot (parts b) (atoms b) Semirings.negInf val' y = tot (parts b) (atoms b) Semirings.negInf val y +
      δ * (((allAtoms (parts b) (ones b) (atoms b) y).filterMap Atom.link).count e : ℝ) := by
  rw [D.tot_line Semirings.negInf val' val (fun e' => if e' = e then 1 else 0) δ b hb hv y, sum_weight_single, count_link]
  cases y with
  | inl y =>
    simp only [allAtoms, Sum.elim_inl, Multiset.mem_add, Multiset.mem_map, reduceCtorEq, and_false, exists_false, false_or]
    intro hc
    cases Multiset.eq_of_mem_replicate hc
  | inr y => exact hm y

/-- The two tangents at the potentials before and after. -/
theorem move {p q : A.T ℝ} {val val' : List ℕ → ℝ} (D : BatchDP A p lengths B val E parts ones atoms) (D' : BatchDP A q lengths B val' E parts ones atoms)
    (b : ℕ) (hb : b < B) (e : List ℕ) (hh : e.head? = some b) (δ : ℝ) (hv : ∀ e', E b e' → val' e' = val e' + δ * if e' = e then 1 else 0)
    (hm : ∀ y, Atom.masked e ∉ atoms b y) :
    ∃ μ ν z z', Dist.marginals A p lengths = .ok μ ∧ Dist.marginals A q lengths = .ok ν ∧ rowValue (Dist.partition A p lengths) b = some z ∧
      rowValue (Dist.partition A q lengths) b = some z' ∧ z + μ e * δ ≤ z' ∧ z' + ν e * (-δ) ≤ z := by
  have := D.nonempty_all b hb
  obtain ⟨μ, h1, h2⟩ := D.marginals_eq
  obtain ⟨ν, g1, g2⟩ := D'.marginals_eq
  refine ⟨μ, ν, _, _, h1, g1, by rw [D.partition_eq, rowValue_ok _ _ _ hb], by rw [D'.partition_eq, rowValue_ok _ _ _ hb], ?_⟩
  have ht := D.tot_move b hb e δ hv hm
  rw [h2 b hb e hh, g2 b hb e hh]
  constructor
  · refine le_trans (le_of_eq ?_) (Gibbs.tangent_le (tot (parts b) (atoms b) Semirings.negInf val) (tot (parts b) (atoms b) Semirings.negInf val'))
    simp only [ht, Gibbs.expect, sum_mul]
    exact congrArg _ (sum_congr rfl fun y _ => by ring)
  · refine le_trans (le_of_eq ?_) (Gibbs.tangent_le (tot (parts b) (atoms b) Semirings.negInf val') (tot (parts b) (atoms b) Semirings.negInf val))
    rw [Gibbs.expect, Gibbs.expect, sum_mul]
    exact congrArg _ (sum_congr rfl fun y _ => by rw [ht y]; ring)

theorem reweight {p q : A.T ℝ} {val val' : List ℕ → ℝ} (D : BatchDP A p lengths B val E parts ones atoms) (D' : BatchDP A q lengths B val' E parts ones atoms)
    (b : ℕ) (hb : b < B) (e : List ℕ) (hh : e.head? = some b) (δ : ℝ) (hv : ∀ e', E b e' → val' e' = val e' + δ * if e' = e then 1 else 0)
    (hm : ∀ y, Atom.masked e ∉ atoms b y) (hnd : ∀ y, (parts b y).count e ≤ 1) (hnd' : ∀ y, ((atoms b y).filterMap Atom.link).count e ≤ 1) :
    ∃ μ ν z z', Dist.marginals A p lengths = .ok μ ∧ Dist.marginals A q lengths = .ok ν ∧ rowValue (Dist.partition A p lengths) b = some z ∧
      rowValue (Dist.partition A q lengths) b = some z' ∧ Reweighted δ z z' (μ e) (ν e) := by
  have := D.nonempty_all b hb
  obtain ⟨μ, h1, h2⟩ := D.marginals_eq
  obtain ⟨ν, g1, g2⟩ := D'.marginals_eq
  refine ⟨μ, ν, _, _, h1, g1, by rw [D.partition_eq, rowValue_ok _ _ _ hb], by rw [D'.partition_eq, rowValue_ok _ _ _ hb], ?_⟩
  have ht := D.tot_move b hb e δ hv hm
  have hc : ∀ y, (((allAtoms (parts b) (ones b) (atoms b) y).filterMap Atom.link).count e : ℝ) = 0 ∨
      (((allAtoms (parts b) (ones b) (atoms b) y).filterMap Atom.link).count e : ℝ) = 1 := fun y => by
    have : ((allAtoms (parts b) (ones b) (atoms b) y).filterMap Atom.link).count e ≤ 1 := by
      cases y with
      | inl y =>
        refine le_trans (le_of_eq ?_) (hnd y)
        rw [RowDP.links_inl]
      | inr y => exact hnd' y
    rcases Nat.le_one_iff_eq_zero_or_eq_one.1 this with h | h <;> rw [h] <;> simp
  rw [h2 b hb e hh, g2 b hb e hh]
  obtain ⟨e1, e2⟩ := Gibbs.shift _ _ _ δ hc ht
  exact ⟨e2, e1, Gibbs.expect_shift _ _ _ δ hc ht⟩

end BatchDP
end Generic
