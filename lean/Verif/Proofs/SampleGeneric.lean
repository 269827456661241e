import Mathlib.Algebra.MvPolynomial.Degrees
import Mathlib.Algebra.BigOperators.Field
import Verif.Proofs.SamplingLaw
import Verif.Proofs.Backward

/-! From the polynomial of a recorded expression to the law of a sample, for any dynamic program. -/

open Finset MvPolynomial Semirings MeasureTheory ProbabilityTheory Spec

noncomputable section
namespace Sampling

/-- The polynomial is computed by running the same program over polynomials. -/
theorem poly_rel (z : ℝ) : SRRel (sr z) fun (e : Expr) (q : MvPolynomial (List ℕ) ℝ) => e.NoEmpty ∧ e.poly = q where
  mul := by rintro a b _ _ ⟨h1, rfl⟩ ⟨h2, rfl⟩; exact ⟨⟨h1, h2⟩, rfl⟩
  sum := by
    intro as xs hne hf
    have hlen := hf.length_eq
    rw [List.forall₂_iff_get] at hf
    refine ⟨⟨List.length_pos_iff.2 hne, fun i => ?_⟩, ?_⟩
    · exact (hf.2 i i.2 (by omega)).1
    · change ∑ i : Fin as.length, (as[i]).poly = _
      have : xs.sum = ∑ i : Fin xs.length, xs[i] := by
        rw [← List.sum_ofFn]; congr 1; exact (List.ofFn_getElem (xs := xs)).symm
      rw [this]
      exact Fintype.sum_equiv (finCongr hlen) _ _ fun i => (hf.2 i i.2 (by omega)).2

/-- Coefficientwise comparison of polynomials with non-negative coefficients. -/
def CLE (f g : MvPolynomial (List ℕ) ℝ) : Prop := ∀ m, 0 ≤ coeff m f ∧ coeff m f ≤ coeff m g

theorem CLE.nonneg {f g : MvPolynomial (List ℕ) ℝ} (h : CLE f g) (m : Ev) : 0 ≤ coeff m g := (h m).1.trans (h m).2

theorem CLE.mul {f g f' g' : MvPolynomial (List ℕ) ℝ} (h : CLE f g) (h' : CLE f' g') : CLE (f * f') (g * g') := fun m => by
  rw [coeff_mul, coeff_mul]
  constructor
  · exact sum_nonneg fun x _ => mul_nonneg (h _).1 (h' _).1
  · exact sum_le_sum fun x _ => mul_le_mul (h _).2 (h' _).2 (h' _).1 (h.nonneg _)

theorem CLE.sum {ι : Type} (s : Finset ι) {f g : ι → MvPolynomial (List ℕ) ℝ} (h : ∀ i ∈ s, CLE (f i) (g i)) :
    CLE (∑ i ∈ s, f i) (∑ i ∈ s, g i) := fun m => by
  rw [coeff_sum, coeff_sum]
  exact ⟨sum_nonneg fun i hi => (h i hi m).1, sum_le_sum fun i hi => (h i hi m).2⟩

theorem CLE.one : CLE 1 1 := fun m => by
  rw [coeff_one]; split_ifs <;> simp

theorem CLE.prod {ι : Type} (s : Finset ι) {f g : ι → MvPolynomial (List ℕ) ℝ} (h : ∀ i ∈ s, CLE (f i) (g i)) :
    CLE (∏ i ∈ s, f i) (∏ i ∈ s, g i) := by
  classical
  induction s using Finset.induction_on with
  | empty => simpa using CLE.one
  | insert a s ha ih =>
    rw [prod_insert ha, prod_insert ha]
    exact (h a (mem_insert_self a s)).mul (ih fun i hi => h i (mem_insert_of_mem hi))

theorem CLE.refl_monomial (m : Ev) {a : ℝ} (ha : 0 ≤ a) : CLE (monomial m a) (monomial m a) := fun m' => by
  classical
  rw [coeff_monomial]; split_ifs <;> simp [ha]

/-- The expression uses every entry at most once when its polynomial does. -/
theorem lin_of_degree {e : Expr} (h : e.NoEmpty) (hd : ∀ id, degreeOf id e.poly ≤ 1) : e.Lin :=
  e.lin_of_poly h fun m hm id => ((degreeOf_le_iff).1 (hd id)) m (mem_support_iff.2 hm)

/-! ### The batch -/

theorem batchSum_noEmpty : ∀ (es : List Expr), (∀ e ∈ es, e.NoEmpty) → (batchSum es).NoEmpty
  | [], _ => trivial
  | _ :: es, h => ⟨h _ (by simp), batchSum_noEmpty es fun e he => h e (by simp [he])⟩

theorem batchSum_poly : ∀ (es : List Expr), (batchSum es).poly = (es.map Expr.poly).prod
  | [] => by simp [batchSum, Expr.poly]
  | e :: es => by rw [batchSum, Expr.poly, batchSum_poly es]; simp

theorem batchSum_value : ∀ (es : List Expr), (batchSum es).value = (es.map Expr.value).sum
  | [] => by simp [batchSum, Expr.value]
  | e :: es => by rw [batchSum, Expr.value, batchSum_value es]; simp

theorem prod_map_range {M : Type} [CommMonoid M] (n : ℕ) (f : ℕ → M) : ((List.range n).map f).prod = ∏ b : Fin n, f b := by
  rw [← Fin.prod_ofFn]
  congr 1
  apply List.ext_getElem <;> simp

theorem sum_map_range' {M : Type} [AddCommMonoid M] (n : ℕ) (f : ℕ → M) : ((List.range n).map f).sum = ∑ b : Fin n, f b := by
  rw [← Fin.sum_ofFn]
  congr 1
  apply List.ext_getElem <;> simp

section law
variable {K Ω : Type} [DecidableEq K] [MeasurableSpace Ω] {T : Tape K} {P : Measure Ω} {X : K → Ω → ℕ}

theorem measurableSet_gradMem (H : Draws T P X) {e : Expr} {k : K} (h : Repr T e k) (A : Set Ev) :
    MeasurableSet {ω | grad T (fun κ => X κ ω) e k ∈ A} := by
  have : {ω | grad T (fun κ => X κ ω) e k ∈ A} = {ω | (fun κ : keys T e k => X κ ω) ∈ {t | gradOn T e k _ t ∈ A}} := by
    ext ω
    simp only [Set.mem_ofPred_eq]
    rw [← gradOn_eq h (fun κ => X κ ω)]
  rw [this]
  have hm : Measurable fun ω (κ : keys T e k) => X κ ω := measurable_pi_lambda _ fun κ => H.meas κ
  exact hm (Set.to_countable {t : keys T e k → ℕ | gradOn T e k _ t ∈ A}).measurableSet

open Classical in
/-- One half of `sample_law_generic`. -/
theorem sample_lower [IsProbabilityMeasure P] (H : Draws T P X) {e : Expr} {k : K} (h : Repr T e k) (he : e.NoEmpty) (hl : e.Lin)
    {ι : Type} [Fintype ι] (ev : ι → Ev) (wt : ι → ℝ) (hwt : ∀ y, 0 < wt y)
    (hc : CLE (∑ y, monomial (ev y) (wt y)) e.poly) {δ : ℝ} (hv : Real.exp e.value ≤ (∑ y, wt y) * Real.exp δ) (A : Set Ev) :
    (∑ y, if ev y ∈ A then wt y / ∑ y, wt y else 0) * Real.exp (-δ) ≤ P.real {ω | grad T (fun κ => X κ ω) e k ∈ A} := by
  set Z := ∑ y, wt y
  have hE := Real.exp_pos e.value
  have hZ : 0 < Z := by
    by_contra hZ
    have : Z * Real.exp δ ≤ 0 := mul_nonpos_of_nonpos_of_nonneg (not_lt.1 hZ) (Real.exp_pos δ).le
    linarith
  let S : Finset Ev := (univ.image ev).filter (· ∈ A)
  have h1 : ∑ g ∈ S, P.real {ω | grad T (fun κ => X κ ω) e k = g} ≤ P.real {ω | grad T (fun κ => X κ ω) e k ∈ A} := by
    rw [← measureReal_biUnion_finset]
    · refine measureReal_mono (fun ω hω => ?_)
      simp only [Set.mem_iUnion, Set.mem_ofPred_eq] at hω ⊢
      obtain ⟨g, hg, rfl⟩ := hω
      exact (mem_filter.1 hg).2
    · intro g _ g' _ hne
      exact Set.disjoint_left.2 fun ω hω hω' => hne (hω.symm.trans hω')
    · intro g _; exact measurableSet_grad H h g
  refine le_trans ?_ h1
  have h2 : ∀ g, (∑ y, if ev y = g then wt y else 0) / Real.exp e.value ≤ P.real {ω | grad T (fun κ => X κ ω) e k = g} := by
    intro g
    rw [div_le_iff₀ hE, law H e k h he hl g]
    refine le_trans (le_of_eq ?_) (hc g).2
    rw [coeff_sum]
    exact sum_congr rfl fun y _ => by rw [coeff_monomial]
  refine le_trans ?_ (sum_le_sum fun g _ => h2 g)
  rw [← sum_div, sum_comm]
  have h3 : ∀ y, (∑ g ∈ S, if ev y = g then wt y else 0) = if ev y ∈ A then wt y else 0 := by
    intro y
    rw [sum_ite_eq S (ev y) fun _ => wt y]
    have : ev y ∈ S ↔ ev y ∈ A := by simp [S]
    simp only [this]
  rw [sum_congr rfl fun y _ => h3 y]
  have h4 : (∑ y, if ev y ∈ A then wt y / Z else 0) = (∑ y, if ev y ∈ A then wt y else 0) / Z := by
    rw [sum_div]; refine sum_congr rfl fun y _ => ?_
    split_ifs <;> simp
  rw [h4, Real.exp_neg, div_mul_eq_mul_div, div_le_div_iff₀ hZ hE]
  have h5 : 0 ≤ ∑ y, if ev y ∈ A then wt y else 0 := sum_nonneg fun y _ => by split_ifs <;> [exact (hwt y).le; exact le_rfl]
  have h6 : (Real.exp δ)⁻¹ * Real.exp e.value ≤ Z := by
    rw [inv_mul_le_iff₀ (Real.exp_pos δ)]; linarith
  calc _ = (∑ y, if ev y ∈ A then wt y else 0) * ((Real.exp δ)⁻¹ * Real.exp e.value) := by ring
    _ ≤ _ := mul_le_mul_of_nonneg_left h6 h5

open Classical in
/-- **The law of a sample.** If the weighted events `ev y` are monomials of the polynomial and the value exceeds the log of the total
weight by at most `δ`, then the sampled event has the law of `y` drawn in proportion to its weight, up to `1 - e^-δ` in total variation. -/
theorem sample_law_generic [IsProbabilityMeasure P] (H : Draws T P X) {e : Expr} {k : K} (h : Repr T e k) (he : e.NoEmpty) (hl : e.Lin)
    {ι : Type} [Fintype ι] (ev : ι → Ev) (wt : ι → ℝ) (hwt : ∀ y, 0 < wt y)
    (hc : CLE (∑ y, monomial (ev y) (wt y)) e.poly) {δ : ℝ} (hδ : 0 ≤ δ) (hv : Real.exp e.value ≤ (∑ y, wt y) * Real.exp δ) (A : Set Ev) :
    |P.real {ω | grad T (fun κ => X κ ω) e k ∈ A} - ∑ y, if ev y ∈ A then wt y / ∑ y, wt y else 0| ≤ 1 - Real.exp (-δ) := by
  have hlo := sample_lower H h he hl ev wt hwt hc hv A
  have hhi := sample_lower H h he hl ev wt hwt hc hv Aᶜ
  set Z := ∑ y, wt y
  have hE := Real.exp_pos e.value
  have hZ : 0 < Z := by
    by_contra hZ
    have : Z * Real.exp δ ≤ 0 := mul_nonpos_of_nonpos_of_nonneg (not_lt.1 hZ) (Real.exp_pos δ).le
    linarith
  have hcompl : P.real {ω | grad T (fun κ => X κ ω) e k ∈ Aᶜ} = 1 - P.real {ω | grad T (fun κ => X κ ω) e k ∈ A} := by
    have := probReal_compl_eq_one_sub (μ := P) (measurableSet_gradMem H h A)
    rw [← this]; rfl
  have hsum : (∑ y, if ev y ∈ A then wt y / Z else 0) + (∑ y, if ev y ∈ Aᶜ then wt y / Z else 0) = 1 := by
    rw [← sum_add_distrib]
    have : ∀ y, (if ev y ∈ A then wt y / Z else 0) + (if ev y ∈ Aᶜ then wt y / Z else 0) = wt y / Z := by
      intro y; by_cases hy : ev y ∈ A <;> simp [hy]
    rw [sum_congr rfl fun y _ => this y, ← sum_div, div_self hZ.ne']
  set a := ∑ y, if ev y ∈ A then wt y / Z else 0
  set b := ∑ y, if ev y ∈ Aᶜ then wt y / Z else 0
  have ha : 0 ≤ a := sum_nonneg fun y _ => by split_ifs <;> [exact (div_pos (hwt y) hZ).le; exact le_rfl]
  have hb : 0 ≤ b := sum_nonneg fun y _ => by split_ifs <;> [exact (div_pos (hwt y) hZ).le; exact le_rfl]
  have he1 : Real.exp (-δ) ≤ 1 := by rw [Real.exp_le_one_iff]; linarith
  rw [hcompl] at hhi
  rw [abs_le]
  have hb1 : b = 1 - a := by linarith
  have k1 : 0 ≤ (1 - a) * (1 - Real.exp (-δ)) := mul_nonneg (by linarith) (by linarith)
  have k2 : 0 ≤ a * (1 - Real.exp (-δ)) := mul_nonneg ha (by linarith)
  have hhi' : b * Real.exp (-δ) ≤ 1 - P.real {ω | grad T (fun κ => X κ ω) e k ∈ A} := by convert hhi
  rw [hb1] at hhi'
  constructor <;> nlinarith

end law

end Sampling
