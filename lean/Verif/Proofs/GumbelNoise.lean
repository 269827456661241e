import Verif.Spec.GumbelNoise
import Mathlib.Probability.Distributions.Exponential
import Mathlib.MeasureTheory.Measure.Prod
import Mathlib.Probability.Independence.InfinitePi
import Mathlib.Tactic.FieldSimp
import Mathlib.Tactic.Linarith

/-! The Gumbel-max trick. -/

open Spec

noncomputable section
namespace GumbelNoise
open MeasureTheory ProbabilityTheory Set

variable {Ω ι : Type} [MeasurableSpace Ω] {μ : Measure Ω}

instance noAtoms_exp (r : ℝ) : NullSingletonClass (expMeasure r) := by unfold expMeasure gammaMeasure; infer_instance

theorem exp_Ici {A : ℝ} (hA : 0 < A) (t : ℝ) : expMeasure A (Ici t) = ENNReal.ofReal (if 0 ≤ t then Real.exp (-(A * t)) else 1) := by
  have : IsProbabilityMeasure (expMeasure A) := isProbabilityMeasure_expMeasure hA
  have h1 : expMeasure A (Iic t) = ENNReal.ofReal (if 0 ≤ t then 1 - Real.exp (-(A * t)) else 0) := by
    rw [← ofReal_cdf, cdf_expMeasure_eq hA]
  have h2 : Ici t = (Iio t)ᶜ := by ext; simp
  rw [h2, prob_compl_eq_one_sub measurableSet_Iio, measure_congr (Iio_ae_eq_Iic), h1, ← ENNReal.ofReal_one, ← ENNReal.ofReal_sub]
  · congr 1; split_ifs <;> ring
  · split_ifs with h
    · have := Real.exp_le_one_iff.2 (show -(A * t) ≤ 0 by have := mul_nonneg hA.le h; linarith); linarith
    · exact le_rfl

/-- If `X` has the distribution function of a Gumbel variable shifted by `log A`, then `exp (-X)` is exponential with rate `A`. -/
theorem law_exp [IsProbabilityMeasure μ] {X : Ω → ℝ} (hX : Measurable X) {A : ℝ} (hA : 0 < A)
    (h : ∀ x, μ {ω | X ω ≤ x} = ENNReal.ofReal (Real.exp (-(A * Real.exp (-x))))) : μ.map (fun ω => Real.exp (-X ω)) = expMeasure A := by
  have : IsProbabilityMeasure (expMeasure A) := isProbabilityMeasure_expMeasure hA
  have hm : Measurable fun ω => Real.exp (-X ω) := Real.measurable_exp.comp hX.neg
  have : IsProbabilityMeasure (μ.map fun ω => Real.exp (-X ω)) := Measure.isProbabilityMeasure_map hm.aemeasurable
  refine Measure.ext_of_Ici _ _ fun t => ?_
  rw [Measure.map_apply hm measurableSet_Ici, exp_Ici hA]
  rcases lt_trichotomy t 0 with ht | ht | ht
  · rw [if_neg (not_le.2 ht)]
    have : (fun ω => Real.exp (-X ω)) ⁻¹' Ici t = univ := by ext ω; simp [ht.le.trans (Real.exp_pos _).le]
    rw [this, measure_univ, ENNReal.ofReal_one]
  · rw [if_pos ht.ge, ht]
    have : (fun ω => Real.exp (-X ω)) ⁻¹' Ici 0 = univ := by ext ω; simp [(Real.exp_pos _).le]
    rw [this, measure_univ]; simp
  · rw [if_pos ht.le]
    have : (fun ω => Real.exp (-X ω)) ⁻¹' Ici t = {ω | X ω ≤ -Real.log t} := by
      ext ω
      simp only [mem_preimage, mem_Ici, mem_setOf_eq]
      rw [← Real.log_le_iff_le_exp ht]
      constructor <;> intro h <;> linarith
    rw [this, h, neg_neg, Real.exp_log ht]

theorem lintegral_exp {A B : ℝ} (hA : 0 < A) (hB : 0 ≤ B) : ∫⁻ t, ENNReal.ofReal (Real.exp (-(B * t))) ∂(expMeasure A) = ENNReal.ofReal (A / (A + B)) := by
  have hAB : 0 < A + B := by linarith
  have hm : Measurable (exponentialPDF A) := (measurable_exponentialPDFReal A).ennreal_ofReal
  have e : expMeasure A = volume.withDensity (exponentialPDF A) := rfl
  rw [e, lintegral_withDensity_eq_lintegral_mul _ hm (by fun_prop)]
  have : ∀ t, (exponentialPDF A * fun t => ENNReal.ofReal (Real.exp (-(B * t)))) t = ENNReal.ofReal (A / (A + B)) * exponentialPDF (A + B) t := by
    intro t
    rw [Pi.mul_apply, exponentialPDF_eq, exponentialPDF_eq]
    split_ifs with h
    · rw [← ENNReal.ofReal_mul (by positivity), ← ENNReal.ofReal_mul (by positivity)]
      congr 1
      rw [mul_assoc, ← Real.exp_add]
      rw [show -(A * t) + -(B * t) = -((A + B) * t) by ring]
      field_simp
    · simp
  simp_rw [this]
  rw [lintegral_const_mul _ (show Measurable (exponentialPDF (A + B)) from (measurable_exponentialPDFReal _).ennreal_ofReal), lintegral_exponentialPDF_eq_one hAB, mul_one]

/-- The race between a shifted Gumbel variable and anything that beats the value `x` with the probability that a shifted Gumbel variable does. -/
theorem race [IsProbabilityMeasure μ] {β : Type} [MeasurableSpace β] {X : Ω → ℝ} {V : Ω → β} (hX : Measurable X) (hV : Measurable V) (hi : IndepFun X V μ)
    {A B : ℝ} (hA : 0 < A) (hB : 0 ≤ B) (h : ∀ x, μ {ω | X ω ≤ x} = ENNReal.ofReal (Real.exp (-(A * Real.exp (-x)))))
    {E : Set (ℝ × β)} (hE : MeasurableSet E) (hEx : ∀ x, μ {ω | (x, V ω) ∈ E} = ENNReal.ofReal (Real.exp (-(B * Real.exp (-x))))) :
    μ {ω | (X ω, V ω) ∈ E} = ENNReal.ofReal (A / (A + B)) := by
  have hmap := (indepFun_iff_map_prod_eq_prod_map_map hX.aemeasurable hV.aemeasurable).1 hi
  have hm : Measurable fun ω => Real.exp (-X ω) := Real.measurable_exp.comp hX.neg
  have h1 : μ {ω | (X ω, V ω) ∈ E} = μ.map (fun ω => (X ω, V ω)) E := (Measure.map_apply (hX.prodMk hV) hE).symm
  have : IsProbabilityMeasure (μ.map V) := Measure.isProbabilityMeasure_map hV.aemeasurable
  rw [h1, hmap, Measure.prod_apply hE]
  have h2 : ∀ x, (μ.map V) (Prod.mk x ⁻¹' E) = ENNReal.ofReal (Real.exp (-(B * Real.exp (-x)))) := fun x => by
    rw [Measure.map_apply hV (measurable_prodMk_left hE), ← hEx x]; rfl
  simp_rw [h2]
  rw [lintegral_map (by fun_prop) hX, ← lintegral_exp hA hB, ← law_exp hX hA h, lintegral_map (by fun_prop) hm]

theorem shifted {g : ι → Ω → ℝ} (hg : IsGumbel μ g) (i : ι) (l x : ℝ) : μ {ω | l + g i ω ≤ x} = ENNReal.ofReal (Real.exp (-(Real.exp l * Real.exp (-x)))) := by
  have : {ω | l + g i ω ≤ x} = {ω | g i ω ≤ x - l} := by ext ω; simp only [mem_setOf_eq]; constructor <;> intro h <;> linarith
  rw [this, hg.cdf, ← Real.exp_add]
  congr 4
  ring

/-- The strict version. -/
theorem shifted_lt [IsProbabilityMeasure μ] {g : ι → Ω → ℝ} (hg : IsGumbel μ g) (i : ι) (l x : ℝ) :
    μ {ω | l + g i ω < x} = ENNReal.ofReal (Real.exp (-(Real.exp l * Real.exp (-x)))) := by
  have hX : Measurable fun ω => l + g i ω := (hg.measurable i).const_add l
  have hm : Measurable fun ω => Real.exp (-(l + g i ω)) := Real.measurable_exp.comp hX.neg
  have h0 : μ {ω | l + g i ω = x} = 0 := by
    have := law_exp hX (Real.exp_pos l) (shifted hg i l)
    have h1 : (μ.map fun ω => Real.exp (-(l + g i ω))) {Real.exp (-x)} = 0 := by rw [this]; exact measure_singleton _
    rw [Measure.map_apply hm (measurableSet_singleton _)] at h1
    refine measure_mono_null (fun ω hω => ?_) h1
    simp only [mem_setOf_eq] at hω
    simp only [mem_preimage, mem_singleton_iff, hω]
  have h2 : {ω | l + g i ω ≤ x} = {ω | l + g i ω < x} ∪ {ω | l + g i ω = x} := by ext ω; simp only [mem_setOf_eq, mem_union]; exact le_iff_lt_or_eq
  rw [← shifted hg i l x, h2]
  refine le_antisymm (measure_mono subset_union_left) ?_
  refine (measure_union_le _ _).trans ?_
  rw [h0, add_zero]

open Classical in
/-- **The Gumbel-max trick**: `c` has the largest noisy score, and no other class ties with it, with the softmax probability of `c`. -/
theorem gumbel_max {g : ι → Ω → ℝ} (hg : IsGumbel μ g) (s : Finset ι) (l : ι → ℝ) {c : ι} (hc : c ∈ s) :
    μ {ω | ∀ c' ∈ s, c' ≠ c → l c' + g c' ω < l c + g c ω} = ENNReal.ofReal (Real.exp (l c) / ∑ i ∈ s, Real.exp (l i)) := by
  have : IsProbabilityMeasure μ := hg.indep.isProbabilityMeasure
  have hi : IndepFun (fun ω => l c + g c ω) (fun ω (i : s.erase c) => g i ω) μ := by
    have := hg.indep.indepFun_finset {c} (s.erase c) (by simp) hg.measurable
    exact this.comp (φ := fun v : ({c} : Finset ι) → ℝ => l c + v ⟨c, by simp⟩) (ψ := id) (by fun_prop) measurable_id
  let E : Set (ℝ × (s.erase c → ℝ)) := {p | ∀ i : s.erase c, l i + p.2 i < p.1}
  have hE : MeasurableSet E := by
    have : E = ⋂ i : s.erase c, {p | l i + p.2 i < p.1} := by ext; simp [E]
    rw [this]
    exact MeasurableSet.iInter fun i => measurableSet_lt (by fun_prop) (by fun_prop)
  have h := race (μ := μ) (X := fun ω => l c + g c ω) (V := fun ω (i : s.erase c) => g i ω) ((hg.measurable c).const_add _)
    (measurable_pi_lambda _ fun i => hg.measurable i) hi (Real.exp_pos (l c)) (B := ∑ i ∈ s.erase c, Real.exp (l i)) (Finset.sum_nonneg fun _ _ => (Real.exp_pos _).le)
    (shifted hg c (l c)) hE (fun x => by
      have h1 : {ω | (x, fun i : s.erase c => g i ω) ∈ E} = ⋂ i ∈ s.erase c, g i ⁻¹' {v | l i + v < x} := by
        ext ω
        simp only [E, mem_setOf_eq, mem_iInter, mem_preimage, Subtype.forall]
      rw [h1, hg.indep.measure_inter_preimage_eq_mul _ fun i _ => measurableSet_lt (by fun_prop) (by fun_prop)]
      have h2 : ∀ i, μ (g i ⁻¹' {v | l i + v < x}) = ENNReal.ofReal (Real.exp (-(Real.exp (l i) * Real.exp (-x)))) := fun i => shifted_lt hg i (l i) x
      simp_rw [h2]
      rw [← ENNReal.ofReal_prod_of_nonneg fun _ _ => (Real.exp_pos _).le, ← Real.exp_sum, Finset.sum_neg_distrib, Finset.sum_mul])
  rw [Finset.add_sum_erase s (fun i => Real.exp (l i)) hc] at h
  rw [← h]
  congr 1
  ext ω
  simp only [E, mem_setOf_eq, Subtype.forall, Finset.mem_erase]
  exact ⟨fun h a ha => h a ha.2 ha.1, fun h a ha hne => h a ⟨hne, ha⟩⟩

open Classical in
/-- Events that depend on disjoint sets of noise variables are independent. -/
theorem blocks {J : Type} {g : ι → Ω → ℝ} (hg : IsGumbel μ g) (S : J → Finset ι) (A : J → Set Ω)
    (hA : ∀ j, ∃ E : Set (S j → ℝ), MeasurableSet E ∧ A j = {ω | (fun i : S j => g i ω) ∈ E}) (F : Finset J)
    (hd : ∀ j ∈ F, ∀ j' ∈ F, j ≠ j' → Disjoint (S j) (S j')) : μ (⋂ j ∈ F, A j) = ∏ j ∈ F, μ (A j) := by
  have : IsProbabilityMeasure μ := hg.indep.isProbabilityMeasure
  induction F using Finset.induction_on with
  | empty => simp
  | insert a F ha ih =>
    rw [Finset.prod_insert ha, ← ih fun j hj j' hj' => hd j (by simp [hj]) j' (by simp [hj'])]
    have hi := hg.indep.indepFun_finset (S a) (F.biUnion S) (by
      rw [Finset.disjoint_biUnion_right]
      exact fun j hj => hd a (by simp) j (by simp [hj]) fun h => ha (h ▸ hj)) hg.measurable
    obtain ⟨E, hE, hEA⟩ := hA a
    have h2 : ∃ G : Set (F.biUnion S → ℝ), MeasurableSet G ∧ (⋂ j ∈ F, A j) = {ω | (fun i : F.biUnion S => g i ω) ∈ G} := by
      choose E hE hEA using hA
      have hsub : ∀ j : F, S j ⊆ F.biUnion S := fun j => Finset.subset_biUnion_of_mem S j.2
      refine ⟨⋂ j : F, {v | (fun i : S j => v ⟨i, hsub j i.2⟩) ∈ E j}, MeasurableSet.iInter fun j => ?_, ?_⟩
      · exact measurable_pi_lambda _ (fun i => measurable_pi_apply _) (hE j)
      · ext ω
        simp only [mem_iInter, mem_setOf_eq, Subtype.forall]
        exact forall₂_congr fun j hj => by rw [hEA]; rfl
    obtain ⟨G, hG, hGA⟩ := h2
    rw [Finset.set_biInter_insert, hEA, hGA]
    exact hi.measure_inter_preimage_eq_mul _ _ hE hG

/-- There is such noise. -/
theorem exists_gumbel (ι : Type) : ∃ (Ω : Type) (_ : MeasurableSpace Ω) (μ : Measure Ω) (g : ι → Ω → ℝ), IsGumbel μ g := by
  have h1 : IsProbabilityMeasure (expMeasure 1) := isProbabilityMeasure_expMeasure one_pos
  refine ⟨ι → ℝ, inferInstance, Measure.infinitePi fun _ => expMeasure 1, fun i ω => -Real.log (ω i), fun i => by fun_prop, ?_, fun i x => ?_⟩
  · exact iIndepFun_infinitePi (P := fun _ => expMeasure 1) (X := fun _ t => -Real.log t) fun i => by fun_prop
  · have hm : MeasurableSet {t : ℝ | -Real.log t ≤ x} := measurableSet_le (by fun_prop) (by fun_prop)
    have h2 : (Measure.infinitePi fun _ : ι => expMeasure 1) {ω | -Real.log (ω i) ≤ x} = expMeasure 1 {t | -Real.log t ≤ x} := by
      have := (measurePreserving_eval_infinitePi (fun _ : ι => expMeasure 1) i).measure_preimage hm.nullMeasurableSet
      exact this
    rw [h2]
    have h3 : expMeasure 1 {t | -Real.log t ≤ x} = expMeasure 1 (Ici (Real.exp (-x))) := by
      have hpos : expMeasure 1 (Iic 0) = 0 := by
        rw [← ofReal_cdf, cdf_expMeasure_eq one_pos]; simp
      refine measure_congr ?_
      have : ∀ᵐ t ∂(expMeasure 1), ¬ t ≤ 0 := by
        rw [ae_iff]; simp only [not_not]; exact hpos
      filter_upwards [this] with t ht
      refine propext ?_
      change -Real.log t ≤ x ↔ Real.exp (-x) ≤ t
      rw [← Real.le_log_iff_exp_le (not_le.1 ht)]
      constructor <;> intro h <;> linarith
    rw [h3, exp_Ici one_pos, if_pos (Real.exp_pos _).le, one_mul]

end GumbelNoise
