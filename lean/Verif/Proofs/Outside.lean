import Mathlib.Algebra.BigOperators.Field
import Mathlib.Algebra.BigOperators.Intervals
import Mathlib.Tactic.FieldSimp
import Mathlib.Tactic.Ring
import Verif.Proofs.TreeBackward

/-! The recursion over larger spans computes the probability of a span. -/

open Finset Spec

noncomputable section
namespace TreeBackwardProofs
open CKYCRFProofs

/-! ### Real gradients -/

/-- `gam` for real factors. -/
def gamR (N L : ℕ) (τ : ℕ → ℕ → ℕ → ℝ) (i j : ℕ) : ℝ :=
  (if i = 0 ∧ j + 1 = L then 1 else 0) + ∑ j' ∈ (Ioo j N).attach, gamR N L τ i j'.1 * τ i j'.1 j +
    ∑ i' ∈ (range i).attach, gamR N L τ i'.1 j * τ i'.1 j (i - 1)
termination_by i + (N - j)
decreasing_by
  · have := mem_Ioo.1 j'.2; omega
  · have := mem_range.1 i'.2; omega

theorem gamR_eq (N L : ℕ) (τ : ℕ → ℕ → ℕ → ℝ) (i j : ℕ) : gamR N L τ i j =
    (if i = 0 ∧ j + 1 = L then 1 else 0) + ∑ j' ∈ Ioo j N, gamR N L τ i j' * τ i j' j + ∑ i' ∈ range i, gamR N L τ i' j * τ i' j (i - 1) := by
  rw [gamR, sum_attach (Ioo j N) fun j' => gamR N L τ i j' * τ i j' j, sum_attach (range i) fun i' => gamR N L τ i' j * τ i' j (i - 1)]

/-- If the factors of all larger spans are real numbers, so is the gradient. -/
theorem gam_real (N L : ℕ) (τ : ℕ → ℕ → ℕ → WithTop ℝ) (ρ : ℕ → ℕ → ℕ → ℝ) : ∀ n i j, i + (N - j) = n → i ≤ j → j < N →
    (∀ i' j', i' ≤ i → j ≤ j' → j' < N → (i', j') ≠ (i, j) → ∀ m, i' ≤ m → m < j' → τ i' j' m = ρ i' j' m) → gam N L τ i j = gamR N L ρ i j := by
  intro n
  induction n using Nat.strong_induction_on with
  | _ n ih =>
    intro i j hn hij hjN h
    have h1 : ∀ j' ∈ Ioo j N, tmul (gam N L τ i j') (τ i j' j) = ((gamR N L ρ i j' * ρ i j' j : ℝ) : WithTop ℝ) := by
      intro j' hj'
      rw [mem_Ioo] at hj'
      rw [ih (i + (N - j')) (by omega) i j' rfl (by omega) hj'.2 fun i1 j1 a1 a2 a3 a4 m a5 a6 => h i1 j1 a1 (by omega) a3
        (by simp only [ne_eq, Prod.mk.injEq]; omega) m a5 a6,
        h i j' le_rfl (by omega) hj'.2 (by simp only [ne_eq, Prod.mk.injEq]; omega) j hij hj'.1, tmul_coe]
    have h2 : ∀ i' ∈ range i, tmul (gam N L τ i' j) (τ i' j (i - 1)) = ((gamR N L ρ i' j * ρ i' j (i - 1) : ℝ) : WithTop ℝ) := by
      intro i' hi'
      rw [mem_range] at hi'
      rw [ih (i' + (N - j)) (by omega) i' j rfl (by omega) hjN fun i1 j1 a1 a2 a3 a4 m a5 a6 => h i1 j1 (by omega) a2 a3
        (by simp only [ne_eq, Prod.mk.injEq]; omega) m a5 a6,
        h i' j (by omega) le_rfl hjN (by simp only [ne_eq, Prod.mk.injEq]; omega) (i - 1) (by omega) (by omega), tmul_coe]
    rw [gam_eq, gamR_eq, sum_congr rfl h1, sum_congr rfl h2, ← WithTop.coe_sum, ← WithTop.coe_sum]
    split_ifs <;> norm_cast

/-- The gradient is NaN exactly if some larger span has NaN factors. -/
theorem gam_top (N L : ℕ) (τ : ℕ → ℕ → ℕ → WithTop ℝ) (bad : ℕ → ℕ → Prop) (hτ : ∀ i j m, i ≤ m → m < j → j < N → (τ i j m = ⊤ ↔ bad i j)) :
    ∀ n i j, i + (N - j) = n → i ≤ j → j < N → (gam N L τ i j = ⊤ ↔ ∃ i' j', i' ≤ i ∧ j ≤ j' ∧ j' < N ∧ (i', j') ≠ (i, j) ∧ bad i' j') := by
  intro n
  induction n using Nat.strong_induction_on with
  | _ n ih =>
    intro i j hn hij hjN
    have e0 : (if i = 0 ∧ j + 1 = L then (1 : WithTop ℝ) else 0) ≠ ⊤ := by split_ifs <;> simp
    rw [gam_eq, WithTop.add_eq_top, WithTop.add_eq_top, WithTop.sum_eq_top, WithTop.sum_eq_top]
    simp only [e0, false_or, tmul_eq_top]
    constructor
    · rintro (⟨j', hj', h⟩ | ⟨i', hi', h⟩)
      · rw [mem_Ioo] at hj'
        rcases h with h | h
        · obtain ⟨i1, j1, a1, a2, a3, a4, a5⟩ := (ih (i + (N - j')) (by omega) i j' rfl (by omega) hj'.2).1 h
          exact ⟨i1, j1, a1, by omega, a3, by simp only [ne_eq, Prod.mk.injEq]; omega, a5⟩
        · exact ⟨i, j', le_rfl, by omega, hj'.2, by simp only [ne_eq, Prod.mk.injEq]; omega, (hτ i j' j hij hj'.1 hj'.2).1 h⟩
      · rw [mem_range] at hi'
        rcases h with h | h
        · obtain ⟨i1, j1, a1, a2, a3, a4, a5⟩ := (ih (i' + (N - j)) (by omega) i' j rfl (by omega) hjN).1 h
          exact ⟨i1, j1, by omega, a2, a3, by simp only [ne_eq, Prod.mk.injEq]; omega, a5⟩
        · exact ⟨i', j, by omega, le_rfl, hjN, by simp only [ne_eq, Prod.mk.injEq]; omega, (hτ i' j (i - 1) (by omega) (by omega) hjN).1 h⟩
    · rintro ⟨i1, j1, a1, a2, a3, a4, a5⟩
      simp only [ne_eq, Prod.mk.injEq] at a4
      by_cases hj : j1 = j
      · subst hj
        exact Or.inr ⟨i1, mem_range.2 (by omega), Or.inr ((hτ i1 j1 (i - 1) (by omega) (by omega) hjN).2 a5)⟩
      · refine Or.inl ⟨j1, mem_Ioo.2 (by omega), ?_⟩
        by_cases hi : i1 = i
        · subst hi
          exact Or.inr ((hτ i1 j1 j hij (by omega) a3).2 a5)
        · exact Or.inl ((ih (i + (N - j1)) (by omega) i j1 rfl (by omega) a3).2 ⟨i1, j1, a1, le_rfl, a3, by simp only [ne_eq, Prod.mk.injEq]; omega, a5⟩)

/-! ### Duality -/

section dual
variable {N L i₀ j₀ : ℕ} (W D X F : ℕ → ℕ → ℝ)

/-- The part of the weight of the span `i … j` that belongs to the split after word `m`. -/
def ratio (i j m : ℕ) : ℝ := W i m * W (m + 1) j / D i j

theorem gamR_zero {i j : ℕ} (hW : W i j = 0) (hr : ¬ (i = 0 ∧ j + 1 = L)) : gamR N L (ratio W D) i j = 0 := by
  rw [gamR_eq, if_neg hr, sum_eq_zero, sum_eq_zero]
  · simp
  · intro i' hi'
    rw [mem_range] at hi'
    have e : i - 1 + 1 = i := by omega
    rw [ratio, e, hW]; simp
  · intro j' _
    rw [ratio, hW]; simp

/-- The gradient of a span, times its share of the part in question, is the share of that part in the whole sentence. -/
theorem dual (hL : L ≤ N) (hj : j₀ < N) (hij : i₀ ≤ j₀) (hW : ∀ i j, 0 ≤ W i j)
    (hWX : ∀ i j, i ≤ i₀ → j₀ ≤ j → j < N → (i, j) ≠ (i₀, j₀) → W i j = D i j * X i j)
    (hF0 : ∀ i j, W i j = 0 → F i j = 0)
    (hFr : ∀ i j, i ≤ j → ¬ (i ≤ i₀ ∧ j₀ ≤ j) → F i j = 0)
    (hF : ∀ i j, i ≤ i₀ → j₀ ≤ j → j < N → (i, j) ≠ (i₀, j₀) → F i j = (∑ m ∈ Ico i j, (F i m * W (m + 1) j + W i m * F (m + 1) j)) * X i j)
    (hroot : j₀ < L → W 0 (L - 1) ≠ 0) :
    gamR N L (ratio W D) i₀ j₀ * (F i₀ j₀ / W i₀ j₀) = if j₀ < L then F 0 (L - 1) / W 0 (L - 1) else 0 := by
  have hFW : ∀ i j, F i j = F i j / W i j * W i j := by
    intro i j
    by_cases h : W i j = 0
    · rw [hF0 _ _ h, h]; simp
    · field_simp
  let h : ℕ → ℕ → ℝ := fun i j => F i j / W i j
  let g : ℕ → ℕ → ℝ := gamR N L (ratio W D)
  have key : ∀ i ∈ range (i₀ + 1), ∀ j ∈ Ico j₀ N, g i j * h i j = (if i = i₀ ∧ j = j₀ then g i₀ j₀ * h i₀ j₀ else 0) +
      ((∑ m ∈ Ico j₀ j, g i j * ratio W D i j m * h i m) + ∑ m ∈ Ioc i i₀, g i j * ratio W D i j (m - 1) * h m j) := by
    intro i hi j hj'
    rw [mem_range] at hi
    rw [mem_Ico] at hj'
    by_cases he : i = i₀ ∧ j = j₀
    · obtain ⟨rfl, rfl⟩ := he
      simp
    · rw [if_neg he, zero_add]
      have he' : (i, j) ≠ (i₀, j₀) := by simpa using he
      by_cases hw : W i j = 0
      · have : g i j = 0 := by
          refine gamR_zero W D hw ?_
          rintro ⟨rfl, rfl⟩
          exact hroot (by omega) (by simpa using hw)
        simp [this]
      · have e1 := hWX i j (by omega) hj'.1 hj'.2 he'
        have hD : D i j ≠ 0 := fun h0 => hw (by rw [e1, h0, zero_mul])
        have hX : X i j ≠ 0 := fun h0 => hw (by rw [e1, h0, mul_zero])
        have e2 : h i j = (∑ m ∈ Ico i j, (F i m * W (m + 1) j + W i m * F (m + 1) j)) / D i j := by
          simp only [h]
          rw [hF i j (by omega) hj'.1 hj'.2 he', e1]
          field_simp
        rw [e2, sum_add_distrib, add_div, mul_add]
        congr 1
        · rw [sum_div, mul_sum]
          have e3 : ∀ m ∈ Ico i j, m ∉ Ico j₀ j → g i j * (F i m * W (m + 1) j / D i j) = 0 := by
            intro m hm hm'
            rw [mem_Ico] at hm hm'
            rw [hFr i m hm.1 (by omega)]; simp
          rw [← sum_subset (fun m hm => by rw [mem_Ico] at hm ⊢; omega) e3]
          refine sum_congr rfl fun m _ => ?_
          conv_lhs => rw [hFW i m]
          rw [ratio]; ring
        · rw [sum_div, mul_sum]
          have e4 : ∑ m ∈ Ioc i i₀, g i j * ratio W D i j (m - 1) * h m j = ∑ m ∈ Ico i i₀, g i j * ratio W D i j m * h (m + 1) j := by
            refine sum_nbij' (fun m => m - 1) (fun m => m + 1) ?_ ?_ ?_ ?_ ?_
            · intro m hm; rw [mem_Ioc] at hm; rw [mem_Ico]; omega
            · intro m hm; rw [mem_Ico] at hm; rw [mem_Ioc]; omega
            · intro m hm; rw [mem_Ioc] at hm; omega
            · intro m hm; omega
            · intro m hm
              rw [mem_Ioc] at hm
              have : m - 1 + 1 = m := by omega
              rw [this]
          rw [e4]
          have e3 : ∀ m ∈ Ico i j, m ∉ Ico i i₀ → g i j * (W i m * F (m + 1) j / D i j) = 0 := by
            intro m hm hm'
            rw [mem_Ico] at hm hm'
            rw [hFr (m + 1) j (by omega) (by omega)]; simp
          rw [← sum_subset (fun m hm => by rw [mem_Ico] at hm ⊢; omega) e3]
          refine sum_congr rfl fun m _ => ?_
          conv_lhs => rw [hFW (m + 1) j]
          rw [ratio]; ring
  have s1 : ∑ i ∈ range (i₀ + 1), ∑ j ∈ Ico j₀ N, g i j * h i j = g i₀ j₀ * h i₀ j₀ +
      (∑ i ∈ range (i₀ + 1), ∑ j ∈ Ico j₀ N, ∑ m ∈ Ico j₀ j, g i j * ratio W D i j m * h i m) +
      ∑ i ∈ range (i₀ + 1), ∑ j ∈ Ico j₀ N, ∑ m ∈ Ioc i i₀, g i j * ratio W D i j (m - 1) * h m j := by
    rw [sum_congr rfl fun i hi => sum_congr rfl fun j hj => key i hi j hj]
    simp only [sum_add_distrib]
    rw [← add_assoc]
    congr 2
    rw [sum_eq_single_of_mem i₀ (by simp), sum_eq_single_of_mem j₀ (by simp [hj])]
    · simp
    · intro j _ hne; simp [hne]
    · intro i _ hne; simp [hne]
  have s2 : ∑ i ∈ range (i₀ + 1), ∑ j ∈ Ico j₀ N, g i j * h i j = (if j₀ < L then h 0 (L - 1) else 0) +
      (∑ i ∈ range (i₀ + 1), ∑ j ∈ Ico j₀ N, ∑ j' ∈ Ioo j N, g i j' * ratio W D i j' j * h i j) +
      ∑ i ∈ range (i₀ + 1), ∑ j ∈ Ico j₀ N, ∑ i' ∈ range i, g i' j * ratio W D i' j (i - 1) * h i j := by
    have : ∀ i j, g i j * h i j = (if i = 0 ∧ j + 1 = L then h i j else 0) + (∑ j' ∈ Ioo j N, g i j' * ratio W D i j' j * h i j) +
        ∑ i' ∈ range i, g i' j * ratio W D i' j (i - 1) * h i j := by
      intro i j
      simp only [g]
      conv_lhs => rw [gamR_eq]
      rw [add_mul, add_mul, sum_mul, sum_mul]
      simp [ite_mul]
    simp only [this, sum_add_distrib]
    congr 2
    rw [sum_eq_single_of_mem 0 (by simp)]
    · by_cases hjL : j₀ < L
      · rw [if_pos hjL, sum_eq_single_of_mem (L - 1) (by rw [mem_Ico]; omega)]
        · rw [if_pos ⟨rfl, by omega⟩]
        · intro j _ hne; rw [if_neg (by omega)]
      · rw [if_neg hjL, sum_eq_zero]
        intro j hj'; rw [mem_Ico] at hj'; rw [if_neg (by omega)]
    · intro i _ hne; rw [sum_eq_zero]; intro j _; rw [if_neg (by omega)]
  have s3 : ∑ i ∈ range (i₀ + 1), ∑ j ∈ Ico j₀ N, ∑ m ∈ Ico j₀ j, g i j * ratio W D i j m * h i m =
      ∑ i ∈ range (i₀ + 1), ∑ j ∈ Ico j₀ N, ∑ j' ∈ Ioo j N, g i j' * ratio W D i j' j * h i j := by
    refine sum_congr rfl fun i _ => ?_
    refine sum_comm' fun j m => ?_
    simp only [mem_Ico, mem_Ioo]; omega
  have s4 : ∑ i ∈ range (i₀ + 1), ∑ j ∈ Ico j₀ N, ∑ m ∈ Ioc i i₀, g i j * ratio W D i j (m - 1) * h m j =
      ∑ i ∈ range (i₀ + 1), ∑ j ∈ Ico j₀ N, ∑ i' ∈ range i, g i' j * ratio W D i' j (i - 1) * h i j := by
    rw [sum_comm, sum_comm (s := range (i₀ + 1))]
    refine sum_congr rfl fun j _ => ?_
    refine sum_comm' fun i m => ?_
    simp only [mem_range, mem_Ioc]; omega
  rw [s3, s4] at s1
  have := s1.symm.trans s2
  change g i₀ j₀ * h i₀ j₀ = if j₀ < L then h 0 (L - 1) else 0
  linarith

end dual

end TreeBackwardProofs
