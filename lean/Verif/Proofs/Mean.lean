import Mathlib.Algebra.BigOperators.Field
import Verif.Spec.Mean
import Verif.Proofs.Covariance

/-! The expected value of a quantity computed from independent samples. -/

open Finset MeasureTheory

noncomputable section
namespace Spec

/-- The mean of a function of one coordinate of independent coordinates. -/
theorem mean_coordinate {I : Type} [Fintype I] [DecidableEq I] {ι : I → Type} [∀ b, Fintype (ι b)] (q : ∀ b, ι b → ℝ) (hq : ∀ b, ∑ y, q b y = 1) (b : I) (f : ι b → ℝ) :
    ∑ Y : ∀ b, ι b, (∏ b, q b (Y b)) * f (Y b) = ∑ y, q b y * f y := by
  classical
  have h1 : ∀ Y : ∀ b, ι b, (∏ b, q b (Y b)) * f (Y b) = ∏ c, Function.update q b (fun y => q b y * f y) c (Y c) := by
    intro Y
    rw [← mul_prod_erase univ _ (mem_univ b), ← mul_prod_erase univ _ (mem_univ b), mul_right_comm, Function.update_self]
    congr 1
    refine prod_congr rfl fun c hc => ?_
    rw [Function.update_of_ne (ne_of_mem_erase hc)]
  simp only [h1]
  rw [← Fintype.piFinset_univ, ← prod_univ_sum (fun _ => univ) fun c y => Function.update q b (fun y => q b y * f y) c y]
  rw [prod_eq_single b]
  · simp
  · intro c _ hc
    simp [Function.update_of_ne hc, hq]
  · intro h; exact absurd (mem_univ b) h

theorem sum_independent {I : Type} [Fintype I] [DecidableEq I] {ι : I → Type} [∀ b, Fintype (ι b)] (q : ∀ b, ι b → ℝ) (hq : ∀ b, ∑ y, q b y = 1) :
    ∑ Y : ∀ b, ι b, ∏ b, q b (Y b) = 1 := by
  rw [← Fintype.piFinset_univ, ← prod_univ_sum (fun _ => univ) fun c y => q c y]
  simp [hq]

section Joint
variable {Ω : Type} [MeasurableSpace Ω] {P : Measure Ω} [IsProbabilityMeasure P] {ι : Type} [Fintype ι] {law : ι → ℝ} {Ev : Type} {event : ι → Ev}
  {n : ℕ} {X : Ω → List Ev} {d : Ev}

open Classical in
/-- The joint law of independent samples that each have the law of `event y`, one side. -/
theorem joint_le (hinj : Function.Injective event) (hlen : ∀ ω, (X ω).length = n)
    (hind : ∀ A : ℕ → Set Ev, P.real {ω | ∀ s < n, (X ω).getD s d ∈ A s} = ∏ s ∈ range n, P.real {ω | (X ω).getD s d ∈ A s})
    (hlaw : ∀ s < n, ∀ A : Set Ev, P.real {ω | (X ω).getD s d ∈ A} = ∑ y, if event y ∈ A then law y else 0) (C : Set (List Ev)) :
    P.real {ω | X ω ∈ C} ≤ ∑ Y : Fin n → ι, if (List.ofFn fun s => event (Y s)) ∈ C then ∏ s, law (Y s) else 0 := by
  have hatom : ∀ Y : Fin n → ι, P.real {ω | X ω = List.ofFn fun s => event (Y s)} = ∏ s, law (Y s) := by
    intro Y
    have e : {ω | X ω = List.ofFn fun s => event (Y s)} =
        {ω | ∀ s < n, (X ω).getD s d ∈ (fun s : ℕ => {x : Ev | x = (List.ofFn fun s => event (Y s)).getD s d}) s} := by
      ext ω
      simp only [Set.mem_setOf_eq]
      constructor
      · intro h s _; rw [h]
      · intro h
        refine List.ext_getElem (by simp [hlen]) fun s h1 h2 => ?_
        have := h s (by simpa [hlen] using h1)
        rwa [List.getD_eq_getElem _ _ h1, List.getD_eq_getElem _ _ h2] at this
    rw [e, hind, ← Fin.prod_univ_eq_prod_range (fun s => P.real {ω | (X ω).getD s d ∈ {x : Ev | x = (List.ofFn fun s => event (Y s)).getD s d}})]
    refine prod_congr rfl fun s _ => ?_
    rw [hlaw s s.2, sum_eq_single (Y s)]
    · rw [if_pos]
      simp
    · intro y _ hy
      rw [if_neg]
      intro hc
      refine hy (hinj ?_)
      have hc : event y = (List.ofFn fun s => event (Y s)).getD s d := hc
      rw [hc, List.getD_eq_getElem _ _ (by simp)]
      simp
    · intro h; exact absurd (mem_univ _) h
  have hout : ∀ s < n, P.real {ω | (X ω).getD s d ∈ (Set.range event)ᶜ} = 0 := by
    intro s hs
    rw [hlaw s hs]
    exact sum_eq_zero fun y _ => if_neg fun h => h ⟨y, rfl⟩
  have hsub : {ω | X ω ∈ C} ⊆ (⋃ Y ∈ univ.filter (fun Y : Fin n → ι => (List.ofFn fun s => event (Y s)) ∈ C), {ω | X ω = List.ofFn fun s => event (Y s)}) ∪
      ⋃ s ∈ range n, {ω | (X ω).getD s d ∈ (Set.range event)ᶜ} := by
    intro ω hω
    by_cases h : ∀ s < n, (X ω).getD s d ∈ Set.range event
    · left
      choose y hy using fun s : Fin n => h s s.2
      have e : X ω = List.ofFn fun s => event (y s) := by
        refine List.ext_getElem (by simp [hlen]) fun s h1 h2 => ?_
        have hs : s < n := by simpa [hlen] using h1
        have := hy ⟨s, hs⟩
        rw [List.getElem_ofFn, this, List.getD_eq_getElem _ _ h1]
      simp only [Set.mem_iUnion, mem_filter, mem_univ, true_and, Set.mem_setOf_eq, exists_prop]
      exact ⟨y, e ▸ hω, e⟩
    · right
      push Not at h
      obtain ⟨s, hs, h⟩ := h
      simp only [Set.mem_iUnion, mem_range, exists_prop]
      exact ⟨s, hs, h⟩
  refine (measureReal_mono hsub (measure_ne_top P _)).trans ((measureReal_union_le _ _).trans ?_)
  have h2 : P.real (⋃ s ∈ range n, {ω | (X ω).getD s d ∈ (Set.range event)ᶜ}) ≤ 0 :=
    (measureReal_biUnion_finset_le _ _).trans (sum_eq_zero fun s hs => hout s (mem_range.1 hs)).le
  refine (add_le_add (measureReal_biUnion_finset_le _ _) h2).trans ?_
  rw [add_zero, sum_filter]
  exact sum_le_sum fun Y _ => by split_ifs <;> simp [hatom]

open Classical in
/-- The joint law of independent samples that each have the law of `event y`. -/
theorem joint_eq (hinj : Function.Injective event) (hq : ∑ y, law y = 1) (hlen : ∀ ω, (X ω).length = n)
    (hind : ∀ A : ℕ → Set Ev, P.real {ω | ∀ s < n, (X ω).getD s d ∈ A s} = ∏ s ∈ range n, P.real {ω | (X ω).getD s d ∈ A s})
    (hlaw : ∀ s < n, ∀ A : Set Ev, P.real {ω | (X ω).getD s d ∈ A} = ∑ y, if event y ∈ A then law y else 0) (C : Set (List Ev)) :
    P.real {ω | X ω ∈ C} = ∑ Y : Fin n → ι, if (List.ofFn fun s => event (Y s)) ∈ C then ∏ s, law (Y s) else 0 := by
  refine le_antisymm (joint_le hinj hlen hind hlaw C) ?_
  have h1 := joint_le hinj hlen hind hlaw Cᶜ
  have h2 : (1 : ℝ) ≤ P.real {ω | X ω ∈ C} + P.real {ω | X ω ∈ Cᶜ} := by
    have h := measureReal_union_le (μ := P) {ω | X ω ∈ C} {ω | X ω ∈ Cᶜ}
    have e : {ω | X ω ∈ C} ∪ {ω | X ω ∈ Cᶜ} = Set.univ := by
      ext ω; exact iff_of_true (Classical.em (X ω ∈ C)) trivial
    rw [e, probReal_univ] at h
    exact h
  have h3 : (∑ Y : Fin n → ι, if (List.ofFn fun s => event (Y s)) ∈ C then ∏ s, law (Y s) else 0) +
      (∑ Y : Fin n → ι, if (List.ofFn fun s => event (Y s)) ∈ Cᶜ then ∏ s, law (Y s) else 0) = 1 := by
    rw [← sum_add_distrib, ← sum_independent (fun _ : Fin n => law) fun _ => hq]
    refine sum_congr rfl fun Y _ => ?_
    by_cases h : (List.ofFn fun s => event (Y s)) ∈ C
    · rw [if_pos h, if_neg (fun hc => hc h), add_zero]
    · rw [if_neg h, if_pos (show _ ∈ Cᶜ from h), zero_add]
  have h4 : P.real {ω | X ω ∈ Cᶜ} ≤ ∑ Y : Fin n → ι, if (List.ofFn fun s => event (Y s)) ∈ Cᶜ then ∏ s, law (Y s) else 0 := by convert h1
  refine le_of_add_le_add_right (a := ∑ Y : Fin n → ι, if (List.ofFn fun s => event (Y s)) ∈ Cᶜ then ∏ s, law (Y s) else 0) ?_
  exact (h3.le.trans h2).trans (add_le_add_right h4 _)

/-- The mean of a quantity computed from independent samples. -/
theorem joint_mean (hinj : Function.Injective event) (hq : ∑ y, law y = 1) (hlen : ∀ ω, (X ω).length = n)
    (hind : ∀ A : ℕ → Set Ev, P.real {ω | ∀ s < n, (X ω).getD s d ∈ A s} = ∏ s ∈ range n, P.real {ω | (X ω).getD s d ∈ A s})
    (hlaw : ∀ s < n, ∀ A : Set Ev, P.real {ω | (X ω).getD s d ∈ A} = (open Classical in ∑ y, if event y ∈ A then law y else 0)) (F : List Ev → ℝ) :
    HasMean P (fun ω => F (X ω)) (∑ Y : Fin n → ι, (∏ s, law (Y s)) * F (List.ofFn fun s => event (Y s))) := by
  classical
  have J := joint_eq hinj hq hlen hind hlaw
  refine ⟨univ.image fun Y : Fin n → ι => F (List.ofFn fun s => event (Y s)), ?_, ?_⟩
  · refine (J {e | F e ∉ _}).trans (sum_eq_zero fun Y _ => if_neg fun h => h ?_)
    exact mem_image_of_mem _ (mem_univ Y)
  · have e : ∀ v, P.real {ω | F (X ω) = v} = ∑ Y : Fin n → ι, if F (List.ofFn fun s => event (Y s)) = v then ∏ s, law (Y s) else 0 :=
      fun v => (J {e | F e = v}).trans (sum_congr rfl fun Y _ => by congr)
    simp only [e, mul_sum]
    rw [sum_comm]
    refine sum_congr rfl fun Y _ => ?_
    rw [sum_eq_single (F (List.ofFn fun s => event (Y s)))]
    · rw [if_pos rfl, mul_comm]
    · intro v _ hv
      rw [if_neg (Ne.symm hv), mul_zero]
    · intro h; exact absurd (mem_image_of_mem _ (mem_univ Y)) h

end Joint

/-- The mean of the average of a function over the samples. -/
theorem mean_average {ι : Type} [Fintype ι] {law : ι → ℝ} (hq : ∑ y, law y = 1) {n : ℕ} (hn : 0 < n) (f : ι → ℝ) :
    ∑ Y : Fin n → ι, (∏ s, law (Y s)) * ((∑ s, f (Y s)) / n) = ∑ y, law y * f y := by
  simp only [mul_div_assoc', ← sum_div, mul_sum]
  rw [sum_comm, sum_congr rfl fun s _ => mean_coordinate (fun _ : Fin n => law) (fun _ => hq) s f, sum_const, card_univ, Fintype.card_fin, nsmul_eq_mul]
  have : (n : ℝ) ≠ 0 := by exact_mod_cast hn.ne'
  field_simp

open Sampling in
/-- The expected value of a quantity computed from the samples of a batch. -/
theorem MultiSamplesFrom.mean {es : List Expr} {ι : Type} [Fintype ι] {law : ι → ℝ} {event : ι → List ℕ → ℕ} (h : MultiSamplesFrom es law event 0)
    (hinj : Function.Injective event) (hq : ∑ y, law y = 1) {n : ℕ} (hn : 0 < n) (F : List (List ℕ → ℕ) → ℝ) :
    SampleMean es n F (∑ Y : Fin n → ι, (∏ s, law (Y s)) * F (List.ofFn fun s => event (Y s))) := by
  intro K _ _ T obj hT Ω _ P _ X hX G hG
  obtain ⟨smp, h1, h2, h3, h4⟩ := h K T obj hT Ω P X hX G hG n hn
  refine ⟨smp, h1, h2, joint_mean (d := 0) hinj hq h2 h3 (fun s hs A => ?_) F⟩
  have := h4 s hs A
  exact sub_eq_zero.1 (abs_eq_zero.1 (le_antisymm this (abs_nonneg _)))

open Sampling in
/-- The expected value of the average over the samples of a quantity that depends on one row. -/
theorem MultiSamplesFrom.row_mean {es : List Expr} {B : ℕ} {ι : Fin B → Type} [∀ b, Fintype (ι b)] {q : ∀ b, ι b → ℝ} (hq : ∀ b, ∑ y, q b y = 1)
    {event : (∀ b, ι b) → List ℕ → ℕ} (h : MultiSamplesFrom es (fun Y => ∏ b, q b (Y b)) event 0) (hinj : Function.Injective event) {n : ℕ} (hn : 0 < n)
    (b : Fin B) (f : (List ℕ → ℕ) → ℝ) (k : ι b → ℝ) (hk : ∀ Y, f (event Y) = k (Y b)) :
    SampleMean es n (fun smp => (smp.map f).sum / (smp.map f).length) (∑ y, q b y * k y) := by
  classical
  have := h.mean hinj (sum_independent q hq) hn (fun smp => (smp.map f).sum / (smp.map f).length)
  refine (iff_of_eq (congrArg (SampleMean es n _) ?_)).mp this
  have e : ∀ Y : Fin n → ∀ b, ι b, ((List.ofFn fun s => event (Y s)).map f).sum / (((List.ofFn fun s => event (Y s)).map f).length : ℝ) = (∑ s, k (Y s b)) / n := by
    intro Y
    rw [List.map_ofFn, List.sum_ofFn, List.length_ofFn]
    congr 1
    exact sum_congr rfl fun s _ => hk (Y s)
  simp only [e]
  rw [mean_average (sum_independent q hq) hn fun Y => k (Y b)]
  exact mean_coordinate q hq b k

namespace Gibbs
variable {ι : Type} [Fintype ι]

/-- The score-function estimator: weighting the centred indicator with the reward minus any baseline gives the covariance. -/
theorem sum_prob_baseline [Nonempty ι] (s R f : ι → ℝ) (c : ℝ) : ∑ y, prob s y * ((R y - c) * (f y - expect s f)) = cov s R f := by
  have e : ∀ y, prob s y * ((R y - c) * (f y - expect s f)) =
      prob s y * (R y * f y) - c * (prob s y * f y) - expect s f * (prob s y * R y) + c * expect s f * prob s y := fun y => by ring
  rw [sum_congr rfl fun y _ => e y, sum_add_distrib, sum_sub_distrib, sum_sub_distrib, ← mul_sum, ← mul_sum, ← mul_sum, sum_prob]
  unfold cov
  simp only [expect]
  ring

end Gibbs
end Spec
