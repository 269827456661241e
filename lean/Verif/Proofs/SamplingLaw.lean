import Mathlib.MeasureTheory.Measure.Real
import Verif.Spec.Draws
import Verif.Proofs.Sampling

/-! The law of one sampled event. -/

open Finset MvPolynomial Semirings MeasureTheory ProbabilityTheory Spec

noncomputable section
namespace Sampling

variable {K Ω : Type} [DecidableEq K] [MeasurableSpace Ω] {T : Tape K} {P : Measure Ω} {X : K → Ω → ℕ}

/-- The sampled event as a function of the draws that matter. -/
def gradOn (T : Tape K) (e : Expr) (k : K) (S : Finset K) (t : S → ℕ) : Ev :=
  grad T (fun κ => if h : κ ∈ S then t ⟨κ, h⟩ else 0) e k

theorem gradOn_eq {e : Expr} {k : K} (h : Repr T e k) (draw : K → ℕ) :
    gradOn T e k (keys T e k) (fun κ => draw κ) = grad T draw e k := by
  refine grad_congr e k h fun κ hκ => ?_
  simp [hκ]

omit [MeasurableSpace Ω] in
theorem set_grad {e : Expr} {k : K} (h : Repr T e k) (g : Ev) : {ω | grad T (fun κ => X κ ω) e k = g} =
    {ω | (fun κ : keys T e k => X κ ω) ∈ {t | gradOn T e k _ t = g}} := by
  ext ω
  simp only [Set.mem_ofPred_eq]
  rw [← gradOn_eq h (fun κ => X κ ω)]

theorem measurableSet_grad (H : Draws T P X) {e : Expr} {k : K} (h : Repr T e k) (g : Ev) :
    MeasurableSet {ω | grad T (fun κ => X κ ω) e k = g} := by
  rw [set_grad h]
  have hm : Measurable fun ω (κ : keys T e k) => X κ ω := measurable_pi_lambda _ fun κ => H.meas κ
  exact hm (Set.to_countable {t : keys T e k → ℕ | gradOn T e k _ t = g}).measurableSet

omit [DecidableEq K] in
/-- Events on disjoint sets of draws are independent. -/
theorem indep_sets (H : Draws T P X) {S S' : Finset K} (hS : Disjoint S S') (A : Set (S → ℕ)) (B : Set (S' → ℕ)) :
    P.real ({ω | (fun κ : S => X κ ω) ∈ A} ∩ {ω | (fun κ : S' => X κ ω) ∈ B}) =
      P.real {ω | (fun κ : S => X κ ω) ∈ A} * P.real {ω | (fun κ : S' => X κ ω) ∈ B} := by
  have := H.indep.indepFun_finset S S' hS H.meas
  have := this.measure_inter_preimage_eq_mul A B (Set.to_countable A).measurableSet (Set.to_countable B).measurableSet
  simp only [Measure.real]
  rw [← ENNReal.toReal_mul]
  congr 1

/-- **The law of a sampled event**: an event is drawn with probability (its coefficient in the polynomial) / (exp of the value). -/
theorem law [IsProbabilityMeasure P] (H : Draws T P X) : ∀ (e : Expr) (k : K), Repr T e k → e.NoEmpty → e.Lin → ∀ g : Ev,
    P.real {ω | grad T (fun κ => X κ ω) e k = g} * Real.exp e.value = coeff g e.poly
  | .leaf v id, k, h, he, hl, g => by
    simp only [grad, Expr.poly, coeff_C_mul, coeff_X, Expr.value]
    by_cases hg : Finsupp.single id 1 = g
    · simp [hg]
    · simp [hg]
  | .const v, k, h, he, hl, g => by
    simp only [grad, Expr.poly, coeff_C, Expr.value]
    by_cases hg : 0 = g
    · simp [hg]
    · simp [hg]
  | .mul a b, k, h, he, hl, g => by
    obtain ⟨ka, kb, h1, h2, h3, h4⟩ := h
    have ha := law H a ka h2 he.1 hl.2.1
    have hb := law H b kb h3 he.2 hl.2.2
    rw [Expr.poly, coeff_mul, Expr.value, Real.exp_add]
    have hset : {ω | grad T (fun κ => X κ ω) (.mul a b) k = g} =
        ⋃ x ∈ Finset.antidiagonal g, {ω | grad T (fun κ => X κ ω) a ka = x.1} ∩ {ω | grad T (fun κ => X κ ω) b kb = x.2} := by
      ext ω
      simp only [Set.mem_ofPred_eq, grad_mul _ h1, Set.mem_iUnion, Finset.mem_antidiagonal, Set.mem_inter_iff]
      constructor
      · intro hg; exact ⟨(_, _), hg, rfl, rfl⟩
      · rintro ⟨⟨u, v⟩, hg, rfl, rfl⟩; exact hg
    rw [hset, measureReal_biUnion_finset]
    · rw [Finset.sum_mul]
      refine sum_congr rfl fun x _ => ?_
      rw [set_grad h2, set_grad h3, indep_sets H (keys_disjoint h2 h3 hl.1), ← set_grad h2, ← set_grad h3, ← ha, ← hb]
      ring
    · intro x _ y _ hxy
      refine Set.disjoint_left.2 fun ω hω hω' => hxy ?_
      exact Prod.ext (hω.1.symm.trans hω'.1) (hω.2.symm.trans hω'.2)
    · intro x _
      exact (measurableSet_grad H h2 _).inter (measurableSet_grad H h3 _)
  | .sum n f, k, h, he, hl, g => by
    by_cases hll : (Expr.sum n f).leaves = ∅
    · rw [Expr.poly_leafless _ he hll, coeff_C]
      have : ∀ ω, grad T (fun κ => X κ ω) (.sum n f) k = 0 := fun ω => grad_leafless _ _ _ h hll
      simp only [this]
      by_cases hg : 0 = g
      · simp [hg]
      · simp [hg]
    · have hrep := h
      obtain ⟨c, h1, h2, h3⟩ := h
      have hf := fun i => law H (f i) (c i) (h2 i) (he.2 i) (hl i)
      have hlt := H.range k n c h1 he.1
      have hset : {ω | grad T (fun κ => X κ ω) (.sum n f) k = g} =
          ⋃ i ∈ (univ : Finset (Fin n)), {ω | X k ω = i} ∩ {ω | grad T (fun κ => X κ ω) (f i) (c i) = g} := by
        ext ω
        simp only [Set.mem_ofPred_eq, Set.mem_iUnion, Set.mem_inter_iff, mem_univ, exists_true_left]
        rw [grad_sum _ h1 (hlt ω)]
        constructor
        · intro hg; exact ⟨⟨X k ω, hlt ω⟩, rfl, hg⟩
        · rintro ⟨i, hi, hg⟩
          have : (⟨X k ω, hlt ω⟩ : Fin n) = i := Fin.ext hi
          rw [this]; exact hg
      have hXk : ∀ i : Fin n, {ω | X k ω = i} = {ω | (fun κ : ({k} : Finset K) => X κ ω) ∈ {t | t ⟨k, mem_singleton_self k⟩ = (i : ℕ)}} :=
        fun i => rfl
      rw [hset, measureReal_biUnion_finset]
      · rw [Expr.poly, coeff_sum, Finset.sum_mul]
        refine sum_congr rfl fun i _ => ?_
        rw [hXk i, set_grad (h2 i), indep_sets H (Finset.disjoint_singleton_left.2 (key_not_child hrep h1 i)), ← set_grad (h2 i), ← hXk i,
          H.law k n c h1 i, ← hf i g, Expr.value, Expr.exp_lse_ofFn he.1, repr_val _ _ (h2 i)]
        have e : ∑ j, Real.exp (T.val (c j)) = ∑ j, Real.exp ((f j).value) := sum_congr rfl fun j _ => by rw [repr_val _ _ (h2 j)]
        rw [e]
        have hpos : 0 < ∑ j, Real.exp ((f j).value) := by
          have : Nonempty (Fin n) := ⟨⟨0, he.1⟩⟩
          exact sum_pos (fun j _ => Real.exp_pos _) univ_nonempty
        field_simp
      · intro i _ j _ hij
        refine Set.disjoint_left.2 fun ω hω hω' => hij ?_
        exact Fin.ext (hω.1.symm.trans hω'.1)
      · intro i _
        exact ((H.meas k) (measurableSet_singleton _)).inter (measurableSet_grad H (h2 i) _)
  | .setData x v, k, h, he, hl, g => by
    obtain ⟨kx, h1, h2, h3⟩ := h
    have hx := law H x kx h2 he hl g
    simp only [grad_setData _ h1]
    rw [Expr.poly, coeff_C_mul, ← hx, Expr.value, Real.exp_sub]
    have := (Real.exp_pos x.value).ne'
    field_simp

end Sampling
